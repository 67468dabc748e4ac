import Verif.Sys.FineTwo
import Verif.Sys.Walks
/-!
# A reader that runs while other operations run, access by access
-/
set_option autoImplicit false
namespace Radix
open T

/-- As `Walks`, but every access of the other operations is a step as well. -/
inductive FWalks (env : Env) (H : FSys → FAct → Prop) (K : Sys → Ev → Prop) {α : Type} (f : FSys) (σ : Spec) (p : Prog α) : FSys → Spec → Prog α → Prop
  | refl : FWalks env H K f σ p f σ p
  | other {f1 σ1 q act f2 ev} : FWalks env H K f σ p f1 σ1 q → env.Allowed f1.sys act.act → H f1 act → fexec env.fetch f1 act = some (.ok (f2, ev)) →
      K f2.sys ev → FWalks env H K f σ p f2 (σ1.next ev) q
  | root {f1 σ1 k} : FWalks env H K f σ p f1 σ1 (.root k) → FWalks env H K f σ p f1 σ1 (k f1.sys.st.root)
  | blocks {f1 σ1 k} : FWalks env H K f σ p f1 σ1 (.blocks k) → FWalks env H K f σ p f1 σ1 (k f1.sys.st.nblocks)
  | load {f1 σ1 x k} : FWalks env H K f σ p f1 σ1 (.load x k) → FWalks env H K f σ p f1 σ1 (k (f1.sys.st.mem x))

/-- As `Begins`. -/
def FBegins (env : Env) (H : FSys → FAct → Prop) (a : Nat) (c : Call) (f : FSys) (σ : Spec) : Prop :=
  ∃ f0 σ0, FRun env H f0 σ0 ∧ env.Allowed f0.sys (.arm a) ∧ H f0 (.arm a) ∧ fexec env.fetch f0 (.arm a) = some (.ok (f, .begun a c)) ∧
    σ = σ0.next (.begun a c)

section
variable {env : Env} {α : Type} {a : Nat}

theorem FWalks.trans {H : FSys → FAct → Prop} {K : Sys → Ev → Prop} {f f1 f2 : FSys} {σ σ1 σ2 : Spec} {p p1 p2 : Prog α}
    (h : FWalks env H K f σ p f1 σ1 p1) (h' : FWalks env H K f1 σ1 p1 f2 σ2 p2) : FWalks env H K f σ p f2 σ2 p2 := by
  induction h' with
  | refl => exact h
  | other _ h1 h2 h3 h4 ih => exact .other ih h1 h2 h3 h4
  | root _ ih => exact .root ih
  | blocks _ ih => exact .blocks ih
  | load _ ih => exact .load ih

/-- At most two updates, or one delete, at a time: the coarse execution is calm. -/
theorem Walks.weaken {K : Sys → Ev → Prop} {s s' : Sys} {σ σ' : Spec} {p p' : Prog α} (h : Walks env TwoUpdates K s σ p s' σ' p')
    (hr : Run env TwoUpdates s σ) : Walks env Calm K s σ p s' σ' p' := by
  induction h with
  | refl => exact .refl
  | other hw h1 h2 h3 h4 ih =>
    obtain ⟨_, t, seen, hI, hM⟩ := (hw.run hr).twoUpdates
    exact .other ih h1 (hM.calm hI h2) h3 h4
  | root _ ih => exact .root ih
  | blocks _ ih => exact .blocks ih
  | load _ ih => exact .load ih

theorem Begins.weaken {c : Call} {s : Sys} {σ : Spec} (h : Begins env TwoUpdates a c s σ) : Begins env Calm a c s σ := by
  obtain ⟨s0, σ0, h1, h2, _, h4, h5⟩ := h
  exact ⟨s0, σ0, h1.twoUpdates.1, h2, trivial, h4, h5⟩

/-- The restriction `H` of the fine system makes the steps of the coarse one calm and implies `G`. -/
def FFits (env : Env) (H : FSys → FAct → Prop) (G : Sys → Act → Prop) : Prop :=
  ∀ {f s σ t seen act}, FRel env G f s σ t seen → H f act → (Calm s act.act ∨ FCalm f act) ∧ ((∀ a, act ≠ .step a) → G s act.act)

theorem ffits_two : FFits env FTwoUpdates TwoUpdates := fun hF hG => ⟨.inl (hF.twoCalm hG), fun _ => hF.two hG⟩

theorem ffits_calm : FFits env FCalm Calm := fun hF hcalm => ⟨.inr hcalm, fun hn => hF.calm hn hcalm⟩

section
variable {H : FSys → FAct → Prop} {G : Sys → Act → Prop} [FineG G]

/-- The reader with coarse steps of the others. -/
theorem FWalks.rel (hH : FFits env H G) {f f' : FSys} {s : Sys} {σ σ' : Spec} {t : T} {seen : Nat → T → Prop} {p p' : Prog α} (hF : FRel env G f s σ t seen)
    (ha : (s.proc a).active = true) (h : FWalks env H (During a) f σ p f' σ' p') :
    ∃ s' t' seen', FRelX env (fun s' σ' => Run env G s' σ' ∧ Walks env G (During a) s σ p s' σ' p') f' s' σ' t' seen' := by
  induction h with
  | refl => exact ⟨s, t, seen, hF.map ⟨hF.run, .refl⟩⟩
  | @other f1 σ1 q act f2 ev _ h1 h2 h3 h4 ih =>
    obtain ⟨s1, t1, seen1, hX⟩ := ih
    have hF1 : FRel env G f1 s1 σ1 t1 seen1 := hX.map hX.run.1
    haveI : FineX env (fun s' σ' => Run env G s' σ' ∧ Walks env G (During a) s σ p s' σ' q) :=
      ⟨fun {_ _ b _} ⟨g1, g2⟩ hc he hact => ⟨Run.step (act := .run b) (ev := .none) g1 trivial (FineG.run hc) he,
          Walks.other (act := .run b) (ev := .none) g2 trivial (FineG.run hc) he ⟨fun _ h => (by cases h), by rw [hact]; exact g2.active ha⟩⟩,
        fun {_ _ b _} ⟨g1, g2⟩ he hact => ⟨Run.step (act := .slip b) (ev := .none) g1 trivial FineG.slip he,
          Walks.other (act := .slip b) (ev := .none) g2 trivial FineG.slip he ⟨fun _ h => (by cases h), by rw [hact]; exact g2.active ha⟩⟩⟩
    have hd := hX.fexec h1 (hH hF1 h2).1 h3 fun hn f' s' ev' g1 _ g3 g4 g5 => by
      cases g4
      exact ⟨.step hX.run.1 g1 ((hH hF1 h2).2 hn) g3, .other hX.run.2 g1 ((hH hF1 h2).2 hn) g3 ⟨h4.1, by rw [← g5]; exact h4.2⟩⟩
    rcases hd with ⟨_, _, s', t', seen', e, hX'⟩ | ⟨_, e, _⟩
    · cases e; exact ⟨s', t', seen', hX'⟩
    · cases e
  | @root f1 σ1 k _ ih =>
    obtain ⟨s1, t1, seen1, hX⟩ := ih
    have e : f1.sys.st.root = s1.st.root := by rw [(congrArg Sys.st hX.sys : _ = _)]; rfl
    exact ⟨s1, t1, seen1, hX.map ⟨hX.run.1, by rw [e]; exact .root hX.run.2⟩⟩
  | @blocks f1 σ1 k _ ih =>
    obtain ⟨s1, t1, seen1, hX⟩ := ih
    have e : f1.sys.st.nblocks = s1.st.nblocks := by rw [(congrArg Sys.st hX.sys : _ = _)]; rfl
    exact ⟨s1, t1, seen1, hX.map ⟨hX.run.1, by rw [e]; exact .blocks hX.run.2⟩⟩
  | @load f1 σ1 x k _ ih =>
    obtain ⟨s1, t1, seen1, hX⟩ := ih
    have e : f1.sys.st.mem = s1.st.mem := by rw [(congrArg Sys.st hX.sys : _ = _)]; rfl
    exact ⟨s1, t1, seen1, hX.map ⟨hX.run.1, by rw [e]; exact .load hX.run.2⟩⟩

/-- The step with which an operation begins is a step of both systems. -/
theorem FRel.begins {f0 f : FSys} {s0 : Sys} {σ0 : Spec} {t : T} {seen : Nat → T → Prop} {c : Call} (hF : FRel env G f0 s0 σ0 t seen)
    (h1 : env.Allowed f0.sys (.arm a)) (h3 : Radix.fexec env.fetch f0 (.arm a) = some (.ok (f, .begun a c))) :
    ∃ s t seen, FRelX env (fun s _ => exec env.fetch s0 (.arm a) = some (.ok (s, .begun a c))) f s (σ0.next (.begun a c)) t seen := by
  have hd := FRelX.whole hF (Y := fun s _ => exec env.fetch s0 (.arm a) = some (.ok (s, .begun a c))) (act := .arm a) (by simp) h1
    (.inl trivial) h3 fun f' s' ev' _ _ g3 g4 _ => by cases g4; exact g3
  rcases hd with ⟨_, _, s', t', seen', e, hX'⟩ | ⟨_, e, _⟩
  · cases e; exact ⟨s', t', seen', hX'⟩
  · cases e

theorem FBegins.rel (hH : FFits env H G) {f : FSys} {σ : Spec} {c : Call} (h : FBegins env H a c f σ) :
    ∃ s t seen, FRel env G f s σ t seen ∧ Begins env G a c s σ := by
  obtain ⟨f0, σ0, h1, h2, h3, h4, rfl⟩ := h
  obtain ⟨s0, t0, seen0, hF⟩ := h1.relOf hH
  obtain ⟨s, t, seen, hX⟩ := hF.begins h2 h4
  have hG : G s0 (.arm a) := (hH hF h3).2 (by simp)
  exact ⟨s, t, seen, hX.map (Run.step (act := .arm a) (ev := .begun a c) hF.run trivial hG hX.run), s0, σ0, hF.run, trivial, hG, hX.run, rfl⟩
end

/-- What holds of every reader beside coarse steps of calm operations holds of every reader beside at most two updates or one delete. -/
theorem FWalks.calm {c : Call} {f f' : FSys} {σ σ' : Spec} {p p' : Prog α} (hb : FBegins env FTwoUpdates a c f σ)
    (hw : FWalks env FTwoUpdates (During a) f σ p f' σ' p') :
    ∃ s s', Begins env Calm a c s σ ∧ Walks env Calm (During a) s σ p s' σ' p' ∧ s.st.nblocks = f.sys.st.nblocks ∧
      f'.sys = s'.relock f'.sys.st.locks f'.sys.st.rootLock := by
  obtain ⟨s, t, seen, hF, hB⟩ := hb.rel ffits_two
  obtain ⟨s', t', seen', hX⟩ := hw.rel ffits_two hF hB.weaken.inv.2.choose_spec.choose_spec.2.2
  exact ⟨s, s', hB.weaken, hX.run.2.weaken hF.run, by rw [(congrArg Sys.st hF.sys : _ = _)]; rfl, hX.sys⟩

/-- The same for calm operations. -/
theorem FWalks.calmOf {c : Call} {f f' : FSys} {σ σ' : Spec} {p p' : Prog α} (hb : FBegins env FCalm a c f σ)
    (hw : FWalks env FCalm (During a) f σ p f' σ' p') :
    ∃ s s', Begins env Calm a c s σ ∧ Walks env Calm (During a) s σ p s' σ' p' ∧ s.st.nblocks = f.sys.st.nblocks ∧
      f'.sys = s'.relock f'.sys.st.locks f'.sys.st.rootLock := by
  obtain ⟨s, t, seen, hF, hB⟩ := hb.rel ffits_calm
  obtain ⟨s', t', seen', hX⟩ := hw.rel ffits_calm hF hB.inv.2.choose_spec.choose_spec.2.2
  exact ⟨s, s', hB, hX.run.2, by rw [(congrArg Sys.st hF.sys : _ = _)]; rfl, hX.sys⟩
end
end Radix
