import Verif.Model.State
/-!
# The allocator pool, `Stop`, `Start` and `Len` (`slots.go`, `radix.go:134-168`, `radix.go:244-252`)

Any number of goroutines; every atomic access (load, compare-and-swap, store) is a step of its own.  What a goroutine does with an
allocator between `GetAllocator` and `ReleaseAllocator` is the subject of `Verif/Model/Sys.lean`.
-/
set_option autoImplicit false
namespace Radix

/-- For whom `slots.get` is called: by `GetAllocator` (and `Lookup`, `PrepareUpdate`, `PrepareDelete`, radix.go:244-286), or in the loop of
`Stop` (radix.go:154-156) with `left` calls to come after this one; `len`: this `Stop` was called by `Len`. -/
inductive GetFor
  | user
  | stop (left : Nat) (len : Bool)
  deriving DecidableEq, Repr

/-- Where a goroutine is. -/
inductive PoolPC
  | idle
  | load (i : Nat) (c : GetFor)   -- slots.go:45: about to load slot `i`
  | cas (i : Nat) (c : GetFor)    -- slots.go:46: about to compare-and-swap slot `i`
  | stop (len : Bool)             -- radix.go:151: about to set `stopped`
  | read                          -- radix.go:138-141: `Len` adding up the counters
  | start                         -- radix.go:162: about to clear `stopped`
  | puts (i : Nat)                -- radix.go:165-167: about to make slot `i` available
  deriving DecidableEq, Repr

/-- A goroutine: the allocators it has obtained and not released yet, and where it is. -/
structure Thread where
  held : List Nat := []
  pc : PoolPC := .idle
  deriving DecidableEq, Repr

/-- The pool of `n` allocators (slots.go:16-18; `busy i`: slot `i` is not zero), the flag `stopped` (radix.go:86), and all goroutines.
`quiet` is not part of the code: the last of the events "`Stop` returned" and "`Start` was called" was the former. -/
structure Pool where
  n : Nat
  busy : Nat → Bool
  stopped : Bool
  quiet : Bool
  th : Nat → Thread

/-- slots.go:22-26 `newSlots`. -/
def Pool.new (n : Nat) : Pool := ⟨n, fun _ => false, false, false, fun _ => {}⟩

/-- The steps.  `begin*`: a call; `run`: the next step of the call under way; `release`: `slots.put` (slots.go:54-56). -/
inductive PAct
  | beginGet (t : Nat)
  | release (t i : Nat)
  | beginStop (t : Nat)
  | beginStart (t : Nat)
  | beginLen (t : Nat)
  | run (t : Nat)
  deriving DecidableEq, Repr

def Pool.setPc (s : Pool) (t : Nat) (pc : PoolPC) : Pool := { s with th := upd s.th t { s.th t with pc := pc } }

/-- `Stop` has returned; `Len` goes on with adding up the counters. -/
def Pool.stopDone (s : Pool) (t : Nat) (len : Bool) : Pool :=
  if len then s.setPc t .read else { s with quiet := true }.setPc t .idle

/-- A successful `slots.get` of slot `i` (slots.go:47). -/
def Pool.got (s : Pool) (t i : Nat) : GetFor → Pool
  | .user => { s with th := upd s.th t { held := i :: (s.th t).held, pc := .idle } }
  | .stop 0 len => s.stopDone t len
  | .stop (left + 1) len => s.setPc t (.load 0 (.stop left len))

/-- One step of the call under way. -/
def Pool.step (s : Pool) (t : Nat) : Option Pool :=
  match (s.th t).pc with
  | .idle => none
  | .load i c =>
    -- slots.go:42-51
    if i < s.n then
      if s.busy i then some (s.setPc t (.load (i + 1) c)) else some (s.setPc t (.cas i c))
    else some (s.setPc t (.load 0 c))
  | .cas i c =>
    if s.busy i then some (s.setPc t (.load (i + 1) c))
    else some ({ s with busy := upd s.busy i true }.got t i c)
  | .stop len =>
    -- radix.go:151-156
    if s.stopped then some (s.stopDone t len)
    else
      let s := { s with stopped := true }
      some (if s.n = 0 then s.stopDone t len else s.setPc t (.load 0 (.stop (s.n - 1) len)))
  | .read => some (s.setPc t .start)
  | .start =>
    -- radix.go:162-167
    if s.stopped then
      let s := { s with stopped := false }
      some (s.setPc t (if s.n = 0 then .idle else .puts 0))
    else some (s.setPc t .idle)
  | .puts i => some ({ s with busy := upd s.busy i false }.setPc t (if i + 1 < s.n then .puts (i + 1) else .idle))

/-- One step; `none` if it is not possible now. -/
def Pool.exec (s : Pool) : PAct → Option Pool
  | .beginGet t => if (s.th t).pc = .idle then some (s.setPc t (.load 0 .user)) else none
  | .release t i =>
    if (s.th t).pc = .idle ∧ i ∈ (s.th t).held then
      some { s with busy := upd s.busy i false, th := upd s.th t { s.th t with held := (s.th t).held.erase i } }
    else none
  | .beginStop t => if (s.th t).pc = .idle then some (s.setPc t (.stop false)) else none
  | .beginStart t => if (s.th t).pc = .idle then some ({ s with quiet := false }.setPc t .start) else none
  | .beginLen t => if (s.th t).pc = .idle then some (s.setPc t (.stop true)) else none
  | .run t => s.step t

/-- Executions with the restriction `G`. -/
inductive PRun (n : Nat) (G : Pool → PAct → Prop) : Pool → Prop
  | init : PRun n G (Pool.new n)
  | step {s act s'} : PRun n G s → G s act → s.exec act = some s' → PRun n G s'

/-- Several steps. -/
def Pool.execs : Pool → List PAct → Option Pool
  | s, [] => some s
  | s, act :: acts => (s.exec act).bind fun s' => s'.execs acts

end Radix
