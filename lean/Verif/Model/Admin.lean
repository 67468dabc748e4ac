import Verif.Model.Pool
/-!
# `Admin(out, []string{"allocators"})` (`admin.go:31-45`)

It withdraws all allocators like a user of the tree, one after the other, prints their statistics, and gives them back.  It does not set `stopped`.
-/
set_option autoImplicit false
namespace Radix

/-- Where a call of `Admin` is.
* `ask`: in the loop of admin.go:36-38, with that many calls of `get` to come.  `wait`: in `get`, with that many to come after it.
* `give`: admin.go:43-45; the allocators still to be given back.  The statistics are printed (admin.go:39-41) when `give` has begun and none is given back yet. -/
inductive AdmPC
  | ask (left : Nat)
  | wait (left : Nat)
  | give (l : List Nat)
  deriving DecidableEq, Repr

/-- The pool, and which goroutines are in a call of `Admin`. -/
structure APool where
  pool : Pool
  adm : Nat → Option AdmPC

def APool.new (n : Nat) : APool := ⟨Pool.new n, fun _ => none⟩

/-- Whose step it is. -/
def PAct.who : PAct → Nat
  | .beginGet t | .release t _ | .beginStop t | .beginStart t | .beginLen t | .run t => t

/-- A step of a goroutine that is not in `Admin`; a call of `Admin`; the next step of such a call. -/
inductive AAct
  | user (act : PAct)
  | begin (t : Nat)
  | admin (t : Nat)
  deriving DecidableEq, Repr

def APool.exec (s : APool) : AAct → Option APool
  | .user act => if s.adm act.who = none then (s.pool.exec act).map fun p => { s with pool := p } else none
  | .begin t => if s.adm t = none ∧ (s.pool.th t).pc = .idle then some { s with adm := upd s.adm t (some (.ask s.pool.n)) } else none
  | .admin t =>
    match s.adm t with
    | none => none
    | some (.ask 0) => some { s with adm := upd s.adm t (some (.give ((s.pool.th t).held.take s.pool.n).reverse)) }
    | some (.ask (k + 1)) => (s.pool.exec (.beginGet t)).map fun p => ⟨p, upd s.adm t (some (.wait k))⟩
    | some (.wait k) =>
      if (s.pool.th t).pc = .idle then some { s with adm := upd s.adm t (some (.ask k)) }
      else (s.pool.exec (.run t)).map fun p => { s with pool := p }
    | some (.give []) => some { s with adm := upd s.adm t none }
    | some (.give (i :: l)) => (s.pool.exec (.release t i)).map fun p => ⟨p, upd s.adm t (some (.give l))⟩

def APool.execs : APool → List AAct → Option APool
  | s, [] => some s
  | s, act :: acts => (s.exec act).bind fun s' => s'.execs acts

/-- Executions with the restriction `G`. -/
inductive ARun (n : Nat) (G : APool → AAct → Prop) : APool → Prop
  | init : ARun n G (APool.new n)
  | step {s act s'} : ARun n G s → G s act → s.exec act = some s' → ARun n G s'

end Radix
