import Verif.Model.Pool
/-!
# `slots.available` (`slots.go:28-36`)
-/
set_option autoImplicit false
namespace Radix

/-- A call of `available`, while other goroutines use the pool with the restriction `G`.  `AvailRun n G l i c`: `l` has the states of the pool
from the call on, the last one first; the slots below `i` are loaded, and `c` of them were zero.
* `begin`: slots.go:29-30.  `step`: a step of another goroutine.  `load`: slots.go:31-33. -/
inductive AvailRun (n : Nat) (G : Pool → PAct → Prop) : List Pool → Nat → Nat → Prop
  | begin {s : Pool} : PRun n G s → AvailRun n G [s] 0 0
  | step {s s' : Pool} {l : List Pool} {i c : Nat} {act : PAct} : AvailRun n G (s :: l) i c → G s act → s.exec act = some s' →
      AvailRun n G (s' :: s :: l) i c
  | load {s : Pool} {l : List Pool} {i c : Nat} : AvailRun n G (s :: l) i c → i < s.n →
      AvailRun n G (s :: l) (i + 1) (if s.busy i = false then c + 1 else c)

/-- slots.go:30, 35: the call returns `c`. -/
def AvailReturns (n : Nat) (G : Pool → PAct → Prop) (l : List Pool) (c : Nat) : Prop := ∃ i, AvailRun n G l i c ∧ ∃ s ∈ l.head?, s.n ≤ i

end Radix
