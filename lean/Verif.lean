import Verif.Word
import Verif.Bytes
import Verif.Prefix
import Verif.Tree
import Verif.Commit
import Verif.ActFacts
import Verif.AllocProof
import Verif.MemProof
import Verif.LockProof
import Verif.Core
import Verif.Fin
import Verif.Build
import Verif.FinCommon
import Verif.FinU
import Verif.FinD
import Verif.Body
import Verif.SearchProof
import Verif.Calm
import Verif.Sys.Inv
import Verif.Sys.Evo
import Verif.Sys.Step
import Verif.Sys.StepU
import Verif.Model.State
import Verif.Model.Locks
import Verif.Model.Alloc
import Verif.Model.Search
import Verif.Model.Tail
import Verif.Model.Update
import Verif.Model.Delete
import Verif.Model.SafePrefix
import Verif.Properties.Codec
import Verif.Model.Lookup
import Verif.Model.Sys
import Verif.Spec
import Verif.Sys.StepD
import Verif.Sys.StepR
import Verif.Sys.Publish
import Verif.Sys.Rest
import Verif.Sys.Seq
import Verif.Sys.Call
import Verif.Sys.Facts
import Verif.Sys.Exec
import Verif.Sys.Calls
import Verif.Demo
import Verif.Properties.Map
import Verif.Properties.Abort
import Verif.Properties.Concurrent
import Verif.Model.LockSteps
import Verif.LockSteps
import Verif.Properties.Locks
import Verif.Dense
import Verif.Sys.Memory
import Verif.Properties.Memory
import Verif.Model.Walk
import Verif.Model.Iterator
import Verif.Leaves
import Verif.Walk
import Verif.Scan
import Verif.IterProof
import Verif.CountProof
import Verif.Shape
import Verif.Sys.Read
import Verif.Properties.Walk
import Verif.Properties.Contract
import Verif.Model.Pool
import Verif.PoolProof
import Verif.Properties.Pool
import Verif.Model.Serial
import Verif.SerialProof
import Verif.SerialCut
import Verif.Properties.Serial
import Verif.Model.Pipeline
import Verif.PipelineProof
import Verif.Properties.Pipeline
import Verif.Sys.LockInv
import Verif.Properties.Race
import Verif.Sys.Grow
import Verif.Sys.Complete
import Verif.Properties.Sequence
import Verif.Properties.Wide
import Verif.Properties.Emptied
import Verif.Model.Readers
import Verif.ReadersProof
import Verif.Sys.Reader
import Verif.Sys.ReadSearch
import Verif.Sys.ReadScan
import Verif.Sys.ReadIter
import Verif.Sys.ReadEnds
import Verif.Sys.Walks
import Verif.Properties.Readers
import Verif.Properties.Results
import Verif.Sys.Recycle
import Verif.Properties.Reuse
import Verif.Split
import Verif.Sys.Built
import Verif.Sys.Final
import Verif.Sys.Progress
import Verif.Properties.Progress
import Verif.Model.Fine
import Verif.FineSpec
import Verif.Sys.Atom
import Verif.Sys.Relock
import Verif.Sys.FineLocks
import Verif.Sys.FineInv
import Verif.Sys.FineStep
import Verif.Sys.FineMain
import Verif.Properties.Fine
import Verif.Sys.Apart
import Verif.Sys.Two
import Verif.Sys.FineTwo
import Verif.Properties.Two
import Verif.Sys.Volume
import Verif.Properties.Leak
import Verif.Sys.Narrow
import Verif.Properties.Lost
import Verif.Sys.Budget
import Verif.Properties.Budget
import Verif.Sys.Exact
import Verif.Properties.Exact
import Verif.Model.Epoch
import Verif.Sys.EpochInv
import Verif.Properties.Epoch
import Verif.Model.Admin
import Verif.Properties.Admin
import Verif.Model.Debug
import Verif.Properties.Debug
import Verif.Properties.Stats
import Verif.Model.Close
import Verif.Properties.Close
import Verif.Properties.OneWriter
import Verif.Model.WriteCount
import Verif.Properties.WriteCount
import Verif.Model.Gen32
import Verif.Properties.Gen32
import Verif.Properties.LongKeys
import Verif.Model.Torn
import Verif.TornSpec
import Verif.Sys.TornInv
import Verif.Properties.Torn
import Verif.Sys.Coarse
import Verif.Properties.Coarse
import Verif.Properties.TornTwo
import Verif.Properties.AbortWrong
import Verif.Properties.Retry
import Verif.Properties.FineReaders
import Verif.Properties.TornReaders
import Verif.Properties.DebugSearch
import Verif.Properties.Available
import Verif.Properties.Unused
import Verif.Properties.MemoryTwo
import Verif.Properties.PrintTwo
import Verif.Properties.WalkTwo
import Verif.Properties.SaveTwo
import Verif.Properties.InsertTwo
