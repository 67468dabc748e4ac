import Verif.Sys.FineMain
import Verif.Sys.Two
/-!
# Two updates at a time, access by access
-/
set_option autoImplicit false
namespace Radix

/-- `TwoUpdates` for the system in which every access is a step. -/
def FTwoUpdates (f : FSys) (act : FAct) : Prop := TwoUpdates f.sys act.act

instance : FineG TwoUpdates := ⟨fun _ => trivial, trivial⟩

section
variable {env : Env} {f : FSys} {s : Sys} {σ : Spec} {t : T} {seen : Nat → T → Prop}

theorem FRel.two (h : FRel env TwoUpdates f s σ t seen) {act : FAct} (hG : FTwoUpdates f act) : TwoUpdates s act.act := by
  have hp := h.proc
  have hs := h.st
  unfold FTwoUpdates at hG
  cases act with
  | begin a c =>
    cases c <;> simp only [FAct.act, TwoUpdates, Sys.OneBusy, hp] at hG ⊢ <;> first | exact hG | (rw [hs] at hG; exact hG)
  | quit a => simp only [FAct.act, TwoUpdates, Calm, hp] at hG ⊢; exact hG
  | _ => trivial

theorem FRel.twoCalm (h : FRel env TwoUpdates f s σ t seen) {act : FAct} (hG : FTwoUpdates f act) : Calm s act.act := by
  obtain ⟨_, t, seen, hI, hM⟩ := h.run.twoUpdates
  exact hM.calm hI (h.two hG)

theorem FRel.weaken (h : FRel env TwoUpdates f s σ t seen) : FRel env Calm f s σ t seen :=
  ⟨h.run.twoUpdates.1, h.inv, h.sys, h.locks, h.ok⟩

/-- Every execution with fine steps, and at most two updates or one delete at a time, is related to one with coarse steps. -/
theorem FRun.two (h : FRun env FTwoUpdates f σ) : ∃ s t seen, FRel env TwoUpdates f s σ t seen :=
  h.relOf fun hF hG => ⟨.inl (hF.twoCalm hG), fun _ => hF.two hG⟩

end
end Radix
