import Verif.Model.Lookup
import Verif.Model.Update
import Verif.Model.Delete
/-!
# The system: any number of allocators working on one tree

Every allocator carries at most one operation (`GetAllocator` gives it to one goroutine at a time, see `Verif/Model/Pool.lean`).
`exec` performs one step of one allocator, or of the block goroutine; executions are sequences of such steps in any order.
-/
namespace Radix

/-- The calls: `Allocator.PrepareUpdate`, `PrepareDelete`, `Lookup` (allocator.go:88-169).  `walk`: `Counter.Count`
(counter.go:46-53) or a scan by `Iterator.Next` (iterator.go:66-70), which reserve the epoch with an allocator, too. -/
inductive Call
  | update (key : Key)
  | delete (key : Key)
  | lookup (key : Key)
  | walk
  deriving DecidableEq, Repr

/-- What an allocator is doing.  `arm`: in `startOp` (allocator.go:171-173), between loading the epoch and storing the
reservation.  `walk`: between `startOp` and `endOp` of a `Count` or of a scan; the loads of these readers, which store nothing, are
modelled in `Verif/Model/Readers.lean`.  `updB`, `delB`: inside `Finalize`, the new nodes are built and the change is not yet
published. -/
inductive Proc
  | idle
  | arm (e : Nat) (c : Call)
  | upd (ph : UPh)
  | del (ph : DPh)
  | rd (ph : RPh)
  | walk
  | updB (op : UpdOp) (value : Word) (cm : Commit)
  | delB (cur : DelCur) (cm : Commit)

/-- State of the whole system. -/
structure Sys where
  st : St
  proc : Nat → Proc

/-- A new tree with `n` allocators (radix.go:99-119). -/
def Sys.new (n : Nat) : Sys := ⟨St.new n, fun _ => .idle⟩

/-- The phase after `startOp`. -/
def Call.start : Call → Proc
  | .update key => .upd (.start key)
  | .delete key => .del (.start key)
  | .lookup key => .rd (.start key)
  | .walk => .walk

/-- The steps.  `build`: first part of `Finalize` (`value` is used by updates), `commit`: the store or compare-and-swap that publishes
the change, `publish`: these two without interruption, `unlock`: the release of one lock, `tail`: the rest of `Finalize` without
interruption; `quit`: `Abort` is called (then follow `unlock` and `tail`), `abort`: `Abort` without interruption; `finish`: return of a
lookup, of a walk or of a `PrepareDelete` that found nothing; `block`: step of the block goroutine.

`lockNodes2`, `lockNodes3` and `lockLeafRoot` take and give back locks one after the other, but are one step (`run`) here.  `slip` is the
step of an operation that looks at a lock word while another operation holds it for a moment, in a call of one of these that is not
finished yet. -/
inductive Act
  | begin (a : Nat) (c : Call)
  | arm (a : Nat)
  | run (a : Nat)
  | slip (a : Nat)
  | publish (a : Nat) (value : Word)
  | build (a : Nat) (value : Word)
  | commit (a : Nat)
  | unlock (a : Nat)
  | tail (a : Nat)
  | quit (a : Nat)
  | abort (a : Nat)
  | finish (a : Nat)
  | flush (a : Nat)
  | block
  deriving DecidableEq, Repr

/-- Observable events: the operation `c` of allocator `a` begins; a `Finalize` that returns true takes effect. -/
inductive Ev
  | none
  | begun (a : Nat) (c : Call)
  | put (key : Key) (value : Word)
  | del (key : Key)
  deriving DecidableEq, Repr

/-- The system with a new state and a new phase of allocator `a`. -/
def Sys.set (s : Sys) (a : Nat) (st : St) (p : Proc) : Sys := ⟨st, Radix.upd s.proc a p⟩

/-- The operation is in `lockNodes2`, `lockNodes3` or `lockLeafRoot` (or about to call it), or starts again after such a call has failed and may not
have given back all it had taken. -/
def Proc.locking : Proc → Bool
  | .upd (.start _) => true
  | .del (.start _) => true
  | .upd (.root _ _) => true
  | .upd (.lock _ _) => true
  | .del (.root _ _) => true
  | .del (.lock _) => true
  | .del (.lock3 _ _ _) => true
  | _ => false

/-- Some other operation may hold locks for a moment. -/
def Sys.contended (s : Sys) (a : Nat) : Bool := (List.range s.st.nalloc).any fun b => b ≠ a && (s.proc b).locking

/-- A step of an update that meets a lock word held for a moment: a generation is read or compared while it is increased by one
(update.go:148, 155), or a lock cannot be taken (update.go:109, 119, 455). -/
def slipU (st : St) : UPh → Option (Res UPh)
  | .root key _ => some (.ok (.start key))
  | .gen op => if st.gen (nodeAddr op.raw) % 2 = 0 then some (do
      let gen ← st.generation (nodeAddr op.raw)
      return .ptr { op with node := nodeAddr op.raw, count := nodeCount op.raw, nodeGen := gen + 1 }) else none
  | .par op => if op.parent ≠ 0 ∧ st.gen op.parent % 2 = 0 then some (do
      let gen ← st.generation op.parent
      if op.parentGen ≠ gen + 1 then return .start op.key else return .body op) else none
  | .lock _ op => some (.ok (.start op.key))
  | _ => none

/-- The same for a delete (delete.go:87, 111, 118, 220, 359, 367). -/
def slipD (st : St) : DPh → Option (Res DPh)
  | .root key _ => some (.ok (.start key))
  | .gen cur => if st.gen (nodeAddr cur.op.raw) % 2 = 0 then some (do
      let gen ← st.generation (nodeAddr cur.op.raw)
      return .ptr { cur with op := { cur.op with node := nodeAddr cur.op.raw, nodeGen := gen + 1 } }) else none
  | .par cur => if cur.op.parent ≠ 0 ∧ st.gen cur.op.parent % 2 = 0 then some (do
      let gen ← st.generation cur.op.parent
      if cur.op.parentGen ≠ gen + 1 then return .start cur.key else return .body cur) else none
  | .lock cur => some (.ok (.start cur.key))
  | .cgen cur p other plen => if st.gen cur.op.child % 2 = 0 then some (do
      let gen ← st.generation cur.op.child
      return .cptr { cur with op := { cur.op with childGen := gen + 1 } } p other plen) else none
  | .lock3 cur _ _ => some (.ok (.start cur.key))
  | _ => none

/-- update.go:427-439: the locks `Abort` releases. -/
def UpdOp.abortUnl (op : UpdOp) : Unlock :=
  match op.kind with
  | .replaceEmptyRootWithLeaf | .replaceLeafRootWithNode | .rootLeafUpdate => .root
  | _ => .two op.node op.parent

/-- delete.go:337-347: the locks `Abort` releases (with parent and child exchanged in delete.go:344). -/
def DelOp.abortUnl (op : DelOp) : Unlock :=
  match op.kind with
  | .deleteRoot => .root
  | .deleteLeaf | .replaceNodeWithLeaf => .two op.node op.parent
  | .replaceNodeWithNode => .three op.parent op.node op.child
  | _ => .none

/-- One step; `none` if it is not possible now.  `fetch v` is the key of the object `v` refers to: the caller sets `FetchedKey`
and `Match` accordingly before `Finalize` (allocator.go:109-131). -/
def exec (fetch : Word → Key) (s : Sys) : Act → Option (Res (Sys × Ev))
  | .begin a c =>
    match s.proc a with
    | .idle => if a < s.st.nalloc then some (.ok (s.set a s.st (.arm s.st.epoch c), .none)) else none
    | _ => none
  | .arm a =>
    match s.proc a with
    | .arm e c => some (.ok (s.set a { s.st with resv := upd s.st.resv a e } c.start, .begun a c))
    | _ => none
  | .run a =>
    match s.proc a with
    | .upd (.held _ _) => none
    | .upd (.tail _ _) => none
    | .upd ph => some (do
        let (ph, st) ← stepU s.st ph
        return (s.set a st (.upd ph), .none))
    | .del (.miss _) => none
    | .del (.held _) => none
    | .del (.tail _ _) => none
    | .del ph => some (do
        let (ph, st) ← stepD s.st ph
        return (s.set a st (.del ph), .none))
    | .rd (.done _ _) => none
    | .rd ph => some (do
        let ph ← stepR s.st ph
        return (s.set a s.st (.rd ph), .none))
    | _ => none
  | .slip a =>
    if s.contended a then
      match s.proc a with
      | .upd ph => (slipU s.st ph).map fun r => do
          let ph ← r
          return (s.set a s.st (.upd ph), .none)
      | .del ph => (slipD s.st ph).map fun r => do
          let ph ← r
          return (s.set a s.st (.del ph), .none)
      | _ => none
    else none
  | .publish a value =>
    match s.proc a with
    | .upd (.held _ op) => some (do
        let (b, tl, st) ← publishU s.st a op (fetch op.value) (decide (fetch op.value = op.key)) value
        return (s.set a st (.upd (.tail b tl)), if b then .put op.key (trunc55 value) else .none))
    | .del (.held cur) => some (do
        let (b, tl, st) ← publishD s.st a cur.op
        return (s.set a st (.del (.tail b tl)), if b then .del cur.key else .none))
    | _ => none
  | .build a value =>
    match s.proc a with
    | .upd (.held _ op) => some (do
        let (cm, st) ← buildU s.st a op (fetch op.value) (decide (fetch op.value = op.key)) value
        return (s.set a st (.updB op value cm), .none))
    | .del (.held cur) => if cur.op.kind = .notFound then none else some (do
        let (cm, st) ← buildD s.st a cur.op
        return (s.set a st (.delB cur cm), .none))
    | _ => none
  | .commit a =>
    match s.proc a with
    | .updB op value cm =>
      some (.ok (s.set a (s.st.commit cm).2.2 (.upd (.tail (s.st.commit cm).1 (s.st.commit cm).2.1)),
        if (s.st.commit cm).1 then .put op.key (trunc55 value) else .none))
    | .delB cur cm =>
      some (.ok (s.set a (s.st.commit cm).2.2 (.del (.tail (s.st.commit cm).1 (s.st.commit cm).2.1)),
        if (s.st.commit cm).1 then .del cur.key else .none))
    | _ => none
  | .unlock a =>
    match s.proc a with
    | .upd (.tail b tl) => (s.st.unlockOne tl.unl).map fun r => do
        let (u, st) ← r
        return (s.set a st (.upd (.tail b { tl with unl := u })), .none)
    | .del (.tail b tl) => (s.st.unlockOne tl.unl).map fun r => do
        let (u, st) ← r
        return (s.set a st (.del (.tail b { tl with unl := u })), .none)
    | _ => none
  | .tail a =>
    match s.proc a with
    | .upd (.tail _ tl) => some (do
        let st ← s.st.runTail a tl
        return (s.set a st .idle, .none))
    | .del (.tail _ tl) => some (do
        let st ← s.st.runTail a tl
        return (s.set a st .idle, .none))
    | _ => none
  | .quit a =>
    match s.proc a with
    | .upd (.held _ op) => some (.ok (s.set a s.st (.upd (.tail false { unl := op.abortUnl })), .none))
    | .del (.held cur) => some (.ok (s.set a s.st (.del (.tail false { unl := cur.op.abortUnl })), .none))
    | _ => none
  | .abort a =>
    match s.proc a with
    | .upd (.held _ op) => some (do
        let st ← abortU s.st a op
        return (s.set a st .idle, .none))
    | .del (.held cur) => some (do
        let st ← abortD s.st a cur.op
        return (s.set a st .idle, .none))
    | _ => none
  | .finish a =>
    match s.proc a with
    | .del (.miss _) => some (.ok (s.set a (s.st.endOp a) .idle, .none))
    | .rd (.done _ _) => some (.ok (s.set a (s.st.endOp a) .idle, .none))
    | .walk => some (.ok (s.set a (s.st.endOp a) .idle, .none))
    | _ => none
  | .flush a =>
    match s.proc a with
    | .idle => if a < s.st.nalloc then some (.ok (s.set a (s.st.flushStats a) .idle, .none)) else none
    | _ => none
  | .block => some (do
      let st ← s.st.blockStep
      return (⟨st, s.proc⟩, .none))

end Radix
