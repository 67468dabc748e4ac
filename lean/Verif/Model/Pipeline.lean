import Verif.Model.State
/-!
# The goroutines of `writeState` (`state.go:19-102`)

The header and the allocators are written first (state.go:23-42); then the calling goroutine ("main") passes the block numbers to the
workers (channel `toCompress`, unbuffered), these compress the blocks and pass them to the writer (channel `toWrite`, capacity 32),
and the writer writes them and reports on `writerDone` (unbuffered).  Compression itself and the bytes written are in
`Verif/Model/Serial.lean`; here a job is its block number.  `jobPool` and the counting of bytes are not modelled.
-/
set_option autoImplicit false
namespace Radix

/-- A worker (state.go:55-64): waits for a block, holds a compressed block, or has ended. -/
inductive Wk
  | recv
  | hold (b : Nat)
  | done
  deriving DecidableEq, Repr

/-- The writer (state.go:68-89): waits for a job, writes its heading, writes its data, reports that writing job `b` failed, reports success,
or has ended. -/
inductive Wr
  | recv
  | head (b : Nat)
  | data (b : Nat)
  | fail (b : Nat)
  | fin
  | exited (e : Option Nat)
  deriving DecidableEq, Repr

/-- The calling goroutine (state.go:91-101): in the loop, at `workers.Wait()` (`toCompress` is closed), at `<-writerDone` (`toWrite` is closed),
returned (with an error?). -/
inductive Main
  | feed
  | wait
  | join
  | ret (err : Bool)
  deriving DecidableEq, Repr

structure Pipe where
  main : Main
  /-- the loop variable -/
  fed : Nat
  workers : Nat → Wk
  queue : List Nat
  writer : Wr
  /-- number of calls of `out.Write` -/
  calls : Nat
  /-- the blocks written -/
  written : List Nat

/-- state.go:50: capacity of `toWrite`. -/
def queueCap : Nat := 32

/-- Parameters: the number of blocks, `runtime.NumCPU()`, the number of writes before the first block, and which calls of `out.Write` fail. -/
structure PipeCfg where
  blocks : Nat
  cpus : Nat
  pre : Nat
  fails : Nat → Bool

/-- state.go:20-89: after the header and the allocators; if writing these fails, `writeState` has returned. -/
def Pipe.init (c : PipeCfg) : Pipe where
  main := if (List.range c.pre).any c.fails then .ret true else .feed
  fed := 0
  workers := fun _ => .recv
  queue := []
  writer := .recv
  calls := c.pre
  written := []

inductive PipeAct
  | feed (w : Nat)
  | closeFeed
  | push (w : Nat)
  | leave (w : Nat)
  | closeQueue
  | take
  | write
  | finish
  | join
  deriving DecidableEq, Repr

/-- One step; `none` if it is not possible now. -/
def Pipe.exec (c : PipeCfg) (s : Pipe) : PipeAct → Option Pipe
  -- state.go:93 and 56: main and worker `w` meet
  | .feed w =>
    if s.main = .feed ∧ s.fed < c.blocks ∧ w < c.cpus ∧ s.workers w = .recv then
      some { s with fed := s.fed + 1, workers := upd s.workers w (.hold s.fed) }
    else none
  -- state.go:95
  | .closeFeed => if s.main = .feed ∧ s.fed = c.blocks then some { s with main := .wait } else none
  -- state.go:61
  | .push w =>
    if w < c.cpus ∧ s.queue.length < queueCap then
      match s.workers w with
      | .hold b => some { s with queue := s.queue ++ [b], workers := upd s.workers w .recv }
      | _ => none
    else none
  -- state.go:56, 63: `toCompress` is closed
  | .leave w =>
    if w < c.cpus ∧ s.workers w = .recv ∧ (s.main = .wait ∨ s.main = .join) then some { s with workers := upd s.workers w .done } else none
  -- state.go:96-98
  | .closeQueue =>
    if s.main = .wait ∧ (List.range c.cpus).all (fun w => s.workers w == .done) then some { s with main := .join } else none
  -- state.go:71
  | .take =>
    match s.writer, s.queue with
    | .recv, b :: q => some { s with queue := q, writer := .head b }
    | _, _ => none
  -- state.go:72-86
  | .write =>
    match s.writer with
    | .head b => some { s with calls := s.calls + 1, writer := if c.fails s.calls then .fail b else .data b }
    | .data b =>
      if c.fails s.calls then some { s with calls := s.calls + 1, writer := .fail b }
      else some { s with calls := s.calls + 1, writer := .recv, written := s.written ++ [b] }
    | _ => none
  -- state.go:71, 88: `toWrite` is closed and empty
  | .finish => if s.writer = .recv ∧ s.queue = [] ∧ s.main = .join then some { s with writer := .fin } else none
  -- state.go:74, 82, 88 and 99: the writer and main meet
  | .join =>
    if s.main = .join then
      match s.writer with
      | .fail b => some { s with main := .ret true, writer := .exited (some b) }
      | .fin => some { s with main := .ret false, writer := .exited none }
      | _ => none
    else none

/-- Executions. -/
inductive PipeRun (c : PipeCfg) : Pipe → Prop
  | init : PipeRun c (Pipe.init c)
  | step {s act s'} : PipeRun c s → s.exec c act = some s' → PipeRun c s'

/-- No goroutine can do anything. -/
def Pipe.Stuck (c : PipeCfg) (s : Pipe) : Prop := ∀ act, s.exec c act = none

/-- A list of steps. -/
def Pipe.execs (c : PipeCfg) : Pipe → List PipeAct → Option Pipe
  | s, [] => some s
  | s, a :: as => (s.exec c a).bind fun s => s.execs c as

end Radix
