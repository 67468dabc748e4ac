import Verif.FineSpec
import Verif.Model.Torn
/-!
# Executions in which nodes are copied word by word
-/
set_option autoImplicit false
namespace Radix

/-- What the contract allows, and what the specification `env` says about a step. -/
def TAct.allowed (env : Env) (τ : TSys) : TAct → Prop
  | .load _ _ => True
  | .act x => env.Allowed τ.f.sys x.act

/-- Executions respecting the contract, and the further restriction `G`, as `Run`. -/
inductive TRun (env : Env) (G : TSys → TAct → Prop) : TSys → Spec → Prop
  | init (n : Nat) : TRun env G (TSys.new n) .init
  | reload {τ σ} : TRun env G τ σ → τ.f.sys.Savable →
      TRun env G ⟨⟨⟨τ.f.sys.st.restore, fun _ => .idle⟩, fun _ => .none⟩, fun _ => []⟩ σ
  | step {τ σ act τ' ev} : TRun env G τ σ → act.allowed env τ → G τ act → texec env.fetch τ act = some (.ok (τ', ev)) →
      TRun env G τ' (σ.next ev)

/-- The steps in which the races of the code do not show, as `FCalm`.  In addition, a `deleteLeaf256` does not change a word that another
allocator has loaded in order to copy it (delete.go:158 takes no lock). -/
def TCalm (τ : TSys) : TAct → Prop
  | .load _ _ => True
  | .act act => FCalm τ.f act ∧
    match act with
    | .commit a =>
      match τ.f.sys.proc a with
      | .delB cur _ => cur.op.kind = .deleteLeaf256 → τ.f.sys.st.load cur.op.leafPtr = cur.op.raw →
          ∀ p, cur.op.leafPtr = .slot p → ∀ b w, (p, w) ∉ τ.got b
      | _ => True
    | _ => True

end Radix
