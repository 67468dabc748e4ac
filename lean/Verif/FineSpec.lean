import Verif.Spec
import Verif.Calm
import Verif.Model.Fine
/-!
# Executions in which every access to shared memory is a step
-/
set_option autoImplicit false
namespace Radix

/-- Executions respecting the contract, and the further restriction `G`, as `Run`. -/
inductive FRun (env : Env) (G : FSys → FAct → Prop) : FSys → Spec → Prop
  | init (n : Nat) : FRun env G (FSys.new n) .init
  | reload {f σ} : FRun env G f σ → f.sys.Savable → FRun env G ⟨⟨f.sys.st.restore, fun _ => .idle⟩, fun _ => .none⟩ σ
  | step {f σ act f' ev} : FRun env G f σ → env.Allowed f.sys act.act → G f act → fexec env.fetch f act = some (.ok (f', ev)) →
      FRun env G f' (σ.next ev)

/-- The steps in which the races of the code do not show, as `Calm`.  `lock3`: once the locks of child, node and parent are taken, the generations
of node and parent are the ones read before, increased by one. -/
def FCalm (f : FSys) : FAct → Prop
  | .step a =>
    match f.sys.proc a with
    | .del (.lock3 cur _ _) => (∃ got P, f.fine a = .merge got P) →
        f.sys.st.gen cur.op.node = cur.op.nodeGen + 1 ∧ (cur.op.parent ≠ 0 → f.sys.st.gen cur.op.parent = cur.op.parentGen + 1)
    | _ => Calm f.sys (.run a)
  | act => Calm f.sys act.act

end Radix
