import Verif.Spec
/-!
# Generations of 32 bits

`Model/Locks` has integers of any size for the generations in the lock words; in the code they are of type `int32` (radix.go:56) and
`atomic.CompareAndSwapInt32`, `atomic.AddInt32` (locks.go) compute modulo 2^32.  Here every step of the system is followed by reducing the lock
words; generations are only compared with generations and tested for being odd, so that it does not matter that the code reads the upper half of
the bit patterns as negative numbers.  The generations that operations have loaded are those of the lock words, hence reduced, too.
-/
set_option autoImplicit false
namespace Radix

/-- The bit pattern of an `int32` after a computation with the exact result `g` (locks.go:34-172). -/
def wrap32 (g : Int) : Int := g % 2 ^ 32

/-- The lock words (radix.go:56) hold 32 bits each. -/
def St.wrap (st : St) : St := { st with locks := fun b i => wrap32 (st.locks b i) }

/-- As `St.wrap`. -/
def Sys.wrap (s : Sys) : Sys := ⟨s.st.wrap, s.proc⟩

/-- A step of the system with generations of 32 bits (locks.go:34-172; a step changes a lock word once and compares it before). -/
def exec32 (fetch : Word → Key) (s : Sys) (act : Act) : Option (Res (Sys × Ev)) :=
  (exec fetch s act).map fun r => r.map fun x => (x.1.wrap, x.2)

/-- The operation is prepared (update.go:131, 220-258, delete.go:93, 170-250: the call of `PrepareUpdate`, `PrepareDelete` returns). -/
def Proc.isPrepared : Proc → Bool
  | .upd (.held _ _) => true
  | .del (.held _) => true
  | _ => false

/-- The step completes the preparation of an update or delete. -/
def Act.prepares (act : Act) (s' : Sys) : Bool :=
  match act with
  | .run a => (s'.proc a).isPrepared
  | _ => false

/-- Executions as in `Run`, with `ex` for the steps, in which `n` updates and deletes have been prepared. -/
inductive Counted (ex : (Word → Key) → Sys → Act → Option (Res (Sys × Ev))) (env : Env) (G : Sys → Act → Prop) : Nat → Sys → Spec → Prop
  | init (n : Nat) : Counted ex env G 0 (Sys.new n) .init
  | reload {n s σ} : Counted ex env G n s σ → s.Savable → Counted ex env G n ⟨s.st.restore, fun _ => .idle⟩ σ
  | step {n s σ act s' ev} : Counted ex env G n s σ → env.Allowed s act → G s act → ex env.fetch s act = some (.ok (s', ev)) →
      Counted ex env G (n + if act.prepares s' then 1 else 0) s' (σ.next ev)

end Radix
