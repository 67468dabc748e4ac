import Verif.Model.Admin
/-!
# `Close` and the goroutine which allocates blocks

On top of the pool (`Verif/Model/Pool.lean`).  A goroutine with an allocator may come to the receive in `allocateNode`; everything else it does
with the allocator is not modelled here.  `Verif/Model/Alloc.lean` models that receive as always possible (`blockStep`).
-/
set_option autoImplicit false
namespace Radix

/-- Where the block goroutine is (radix.go:182-196): about to create block `next` and to publish its number; in the `select`; returned. -/
inductive GPC
  | make
  | offer
  | gone
  deriving DecidableEq, Repr

/-- Where a call of `Close` is (radix.go:171-174): in `Stop`; about to close the channel `done`. -/
inductive ClosePC
  | stop
  | close
  deriving DecidableEq, Repr

/-- The pool, the block goroutine with its variable `next`, whether `done` is closed, whether the program has panicked, the calls of `Close`, and
which goroutines are waiting to receive a block (allocator.go:246). -/
structure CPool where
  pool : Pool
  g : GPC
  next : Nat
  closed : Bool
  crash : Bool
  cl : Nat → Option ClosePC
  want : Nat → Bool

/-- radix.go:99-119 `NewTree`. -/
def CPool.new (n : Nat) : CPool := ⟨Pool.new n, .make, 0, false, false, fun _ => none, fun _ => false⟩

/-- `user`: calls and steps of calls of the pool; `need`: an operation comes to the receive of allocator.go:246; `make`, `send`, `exit`: the block
goroutine creates a block, hands it to goroutine `t`, or returns; `beginClose`, `close`: a call of `Close`, and its next step. -/
inductive CAct
  | user (act : PAct)
  | need (t : Nat)
  | make
  | send (t : Nat)
  | exit
  | beginClose (t : Nat)
  | close (t : Nat)
  deriving DecidableEq, Repr

/-- One step; `none` if it is not possible now.  The `select` (radix.go:189-193) may take either case if both are ready. -/
def CPool.exec (s : CPool) (act : CAct) : Option CPool :=
  if s.crash then none
  else match act with
    | .user act => if s.cl act.who = none ∧ s.want act.who = false then (s.pool.exec act).map fun p => { s with pool := p } else none
    | .need t =>
      if s.cl t = none ∧ s.want t = false ∧ (s.pool.th t).pc = .idle ∧ (s.pool.th t).held ≠ [] then some { s with want := upd s.want t true }
      else none
    | .make =>
      if s.g = .make then
        -- radix.go:185 with `next = maxBlockCount` is out of range
        if s.next < maxBlockCount then some { s with g := .offer } else some { s with crash := true }
      else none
    | .send t => if s.g = .offer ∧ s.want t = true then some { s with g := .make, next := s.next + 1, want := upd s.want t false } else none
    | .exit => if s.g = .offer ∧ s.closed = true then some { s with g := .gone } else none
    | .beginClose t =>
      if s.cl t = none ∧ s.want t = false then (s.pool.exec (.beginStop t)).map fun p => { s with pool := p, cl := upd s.cl t (some .stop) }
      else none
    | .close t =>
      match s.cl t with
      | none => none
      | some .stop =>
        if (s.pool.th t).pc = .idle then some { s with cl := upd s.cl t (some .close) }
        else (s.pool.exec (.run t)).map fun p => { s with pool := p }
      | some .close =>
        -- closing a closed channel panics
        if s.closed then some { s with crash := true } else some { s with closed := true, cl := upd s.cl t none }

def CPool.execs : CPool → List CAct → Option CPool
  | s, [] => some s
  | s, act :: acts => (s.exec act).bind fun s' => s'.execs acts

/-- Executions with the restriction `G`. -/
inductive CRun (n : Nat) (G : CPool → CAct → Prop) : CPool → Prop
  | init : CRun n G (CPool.new n)
  | step {s act s'} : CRun n G s → G s act → s.exec act = some s' → CRun n G s'

end Radix
