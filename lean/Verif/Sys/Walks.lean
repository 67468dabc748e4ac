import Verif.Sys.Complete
import Verif.Sys.Reader
/-!
# A reader that runs while other operations run
-/
set_option autoImplicit false
namespace Radix
open T

/-- The reader `p` runs from state `s`, and other operations between its loads, until state `s'`, where `p'` is left to do.  `K`: condition on the
steps of the others, with the state they lead to. -/
inductive Walks (env : Env) (G : Sys → Act → Prop) (K : Sys → Ev → Prop) {α : Type} (s : Sys) (σ : Spec) (p : Prog α) : Sys → Spec → Prog α → Prop
  | refl : Walks env G K s σ p s σ p
  | other {s1 σ1 q act s2 ev} : Walks env G K s σ p s1 σ1 q → env.Allowed s1 act → G s1 act → exec env.fetch s1 act = some (.ok (s2, ev)) →
      K s2 ev → Walks env G K s σ p s2 (σ1.next ev) q
  | root {s1 σ1 k} : Walks env G K s σ p s1 σ1 (.root k) → Walks env G K s σ p s1 σ1 (k s1.st.root)
  | blocks {s1 σ1 k} : Walks env G K s σ p s1 σ1 (.blocks k) → Walks env G K s σ p s1 σ1 (k s1.st.nblocks)
  | load {s1 σ1 x k} : Walks env G K s σ p s1 σ1 (.load x k) → Walks env G K s σ p s1 σ1 (k (s1.st.mem x))

/-- The operation of `a` goes on. -/
def During (a : Nat) (s : Sys) (ev : Ev) : Prop := (∀ c, ev ≠ .begun a c) ∧ (s.proc a).active = true

/-- Allocator `a` begins its operation `c`, in an execution, with state `s` right after that. -/
def Begins (env : Env) (G : Sys → Act → Prop) (a : Nat) (c : Call) (s : Sys) (σ : Spec) : Prop :=
  ∃ s0 σ0, Run env G s0 σ0 ∧ env.Allowed s0 (.arm a) ∧ G s0 (.arm a) ∧ exec env.fetch s0 (.arm a) = some (.ok (s, .begun a c)) ∧
    σ = σ0.next (.begun a c)

section
variable {env : Env} {G : Sys → Act → Prop} {K : Sys → Ev → Prop} {a : Nat} {α : Type}

theorem Walks.trans {s s1 s2 : Sys} {σ σ1 σ2 : Spec} {p p1 p2 : Prog α} (h : Walks env G K s σ p s1 σ1 p1) (h' : Walks env G K s1 σ1 p1 s2 σ2 p2) :
    Walks env G K s σ p s2 σ2 p2 := by
  induction h' with
  | refl => exact h
  | other _ h1 h2 h3 h4 ih => exact .other ih h1 h2 h3 h4
  | root _ ih => exact .root ih
  | blocks _ ih => exact .blocks ih
  | load _ ih => exact .load ih

theorem Walks.active {s s' : Sys} {σ σ' : Spec} {p p' : Prog α} (h : Walks env G (During a) s σ p s' σ' p') (ha : (s.proc a).active = true) :
    (s'.proc a).active = true := by
  induction h with
  | refl => exact ha
  | other _ _ _ _ h4 _ => exact h4.2
  | root _ ih => exact ih
  | blocks _ ih => exact ih
  | load _ ih => exact ih

theorem Walks.run {s s' : Sys} {σ σ' : Spec} {p p' : Prog α} (h : Walks env G K s σ p s' σ' p') (hr : Run env G s σ) : Run env G s' σ' := by
  induction h with
  | refl => exact hr
  | other _ h1 h2 h3 _ ih => exact .step ih h1 h2 h3
  | root _ ih => exact ih
  | blocks _ ih => exact ih
  | load _ ih => exact ih

/-- If no other operation takes a step, the reader returns what the sequential function returns. -/
theorem Walks.alone (s : Sys) (σ : Spec) : ∀ p : Prog α, Walks env G K s σ p s σ (.ret (p.run s.st))
  | .ret _ => .refl
  | .root k => (Walks.root .refl).trans (Walks.alone s σ (k s.st.root))
  | .blocks k => (Walks.blocks .refl).trans (Walks.alone s σ (k s.st.nblocks))
  | .load x k => (Walks.load .refl).trans (Walks.alone s σ (k (s.st.mem x)))

/-! ## Blocks do not disappear -/

theorem KeepBa.nblocks {st st' : St} (h : KeepBa st st') : st'.nblocks = st.nblocks := by
  unfold St.nblocks; rw [h.1, h.2.2]

theorem abortU_quiet {st st' : St} {a : Nat} {op : UpdOp} (h : abortU st a op = .ok st') : Quiet st st' := by
  unfold abortU at h
  split at h
  · cases h; exact ⟨rfl, rfl, rfl, rfl, rfl⟩
  · cases h; exact ⟨rfl, rfl, rfl, rfl, rfl⟩
  · cases h; exact ⟨rfl, rfl, rfl, rfl, rfl⟩
  · obtain ⟨s1, h1, h⟩ := bind_ok h
    cases h
    exact (unlockNodes2_quiet h1).trans ⟨rfl, rfl, rfl, rfl, rfl⟩

theorem abortD_quiet {st st' : St} {a : Nat} {op : DelOp} (h : abortD st a op = .ok st') : Quiet st st' := by
  unfold abortD at h
  split at h
  · cases h; exact ⟨rfl, rfl, rfl, rfl, rfl⟩
  · obtain ⟨s1, h1, h⟩ := bind_ok h
    cases h
    exact (unlockNodes2_quiet h1).trans ⟨rfl, rfl, rfl, rfl, rfl⟩
  · obtain ⟨s1, h1, h⟩ := bind_ok h
    cases h
    exact (unlockNodes2_quiet h1).trans ⟨rfl, rfl, rfl, rfl, rfl⟩
  · obtain ⟨s1, h1, h⟩ := bind_ok h
    cases h
    exact (unlockNodes3_quiet h1).trans ⟨rfl, rfl, rfl, rfl, rfl⟩
  · cases h; exact ⟨rfl, rfl, rfl, rfl, rfl⟩

theorem exec_nblocks {s s' : Sys} {σ : Spec} {t : T} {seen : Nat → T → Prop} (hI : Inv env s σ t seen) {act : Act} {ev : Ev}
    (hall : env.Allowed s act) (hcalm : Calm s act) (h : exec env.fetch s act = some (.ok (s', ev))) : s.st.nblocks ≤ s'.st.nblocks := by
  cases act with
  | begin b c =>
    simp only [exec] at h
    repeat' split at h
    all_goals cases h
    exact Nat.le_refl _
  | arm b =>
    simp only [exec] at h
    split at h
    · cases h; exact Nat.le_refl _
    · cases h
  | run b => rw [(run_quiet h).ba.nblocks]; exact Nat.le_refl _
  | publish b value =>
    simp only [exec] at h
    split at h
    · rename_i f op hp
      rcases publishU_inv hI hp hall with e | ⟨_, _, st', e, _, _, _, ⟨_, hn⟩, _⟩
      · rw [e] at h; cases h
      · rw [e] at h; cases h; exact hn
    · rename_i cur hp
      rcases publishD_inv hI hp hall hcalm with e | ⟨_, _, st', e, _, _, _, _, ⟨_, hn⟩, _⟩
      · rw [e] at h; cases h
      · rw [e] at h; cases h; exact hn
    · cases h
  | build b value =>
    simp only [exec] at h
    split at h
    · rename_i f op hp
      rcases buildU_inv hI hp hall with e | ⟨_, st', e, hA, _⟩
      · rw [e] at h; cases h
      · rw [e] at h; cases h; exact hA.nblocks
    · rename_i cur hp
      split at h
      · cases h
      rcases buildD_inv hI hp hall with e | ⟨_, st', e, hA, _⟩
      · rw [e] at h; cases h
      · rw [e] at h; cases h; exact hA.nblocks
    · cases h
  | commit b =>
    simp only [exec] at h
    split at h
    · cases h; exact Nat.le_of_eq (commit_nblocks _ _).symm
    · cases h; exact Nat.le_of_eq (commit_nblocks _ _).symm
    · cases h
  | slip b => rw [exec_slip_st h]; exact Nat.le_refl _
  | unlock b => exact Nat.le_of_eq (exec_unlock_quiet h).ba.nblocks.symm
  | quit b => rw [exec_quit_st h]; exact Nat.le_refl _
  | tail b =>
    simp only [exec] at h
    split at h
    all_goals first
      | (injection h with h
         obtain ⟨s1, h1, h⟩ := bind_ok h
         cases h
         exact Nat.le_of_eq (runTail_ba h1).nblocks.symm)
      | cases h
  | abort b =>
    simp only [exec] at h
    split at h
    · injection h with h
      obtain ⟨s1, h1, h⟩ := bind_ok h
      cases h
      exact Nat.le_of_eq (abortU_quiet h1).ba.nblocks.symm
    · injection h with h
      obtain ⟨s1, h1, h⟩ := bind_ok h
      cases h
      exact Nat.le_of_eq (abortD_quiet h1).ba.nblocks.symm
    · cases h
  | finish b =>
    simp only [exec] at h
    split at h
    all_goals first | (cases h; exact Nat.le_refl _) | cases h
  | flush b =>
    simp only [exec] at h
    repeat' split at h
    all_goals cases h
    exact Nat.le_refl _
  | block =>
    simp only [exec] at h
    injection h with h
    obtain ⟨s1, h1, h⟩ := bind_ok h
    cases h
    unfold St.blockStep at h1
    split at h1
    · cases h1; exact Nat.le_refl _
    · split at h1
      · cases h1
        show s.st.nblocks ≤ St.nblocks _
        unfold St.nblocks
        simp only [if_true]
        split <;> omega
      · cases h1

/-! ## What `Safe` says about a walk -/

/-- A tree that was current at some moment between `s0` (program `p0`) and `s` (program `p`). -/
def Moment (env : Env) (G : Sys → Act → Prop) (a : Nat) (s0 : Sys) (σ0 : Spec) (p0 : Prog α) (s : Sys) (σ : Spec) (p : Prog α) (t : T) : Prop :=
  ∃ s1 σ1 p1, Walks env G (During a) s0 σ0 p0 s1 σ1 p1 ∧ Walks env G (During a) s1 σ1 p1 s σ p ∧ CoreN env.P s1.st t s1.pend

theorem Moment.step {s0 s s' : Sys} {σ0 σ σ' : Spec} {p0 p p' : Prog α} {t : T} (h : Moment env G a s0 σ0 p0 s σ p t)
    (hw : Walks env G (During a) s σ p s' σ' p') : Moment env G a s0 σ0 p0 s' σ' p' t := by
  obtain ⟨s1, σ1, p1, h1, h2, h3⟩ := h
  exact ⟨s1, σ1, p1, h1, h2.trans hw, h3⟩

theorem Walks.safe {L : Prop} {E : Panic → Prop} {Q : (T → Prop) → α → Prop} {s s' : Sys} {σ σ' : Spec} {p p' : Prog α} {t : T} {seen : Nat → T → Prop}
    (hI : Inv env s σ t seen) (hs : ∀ x, seen a x → x = t) (ha : (s.proc a).active = true) (hnb : 0 < s.st.nblocks)
    (hp : ∀ S, Safe env a L E Q p S) (hw : Walks env Calm (During a) s σ p s' σ' p') :
    ∃ t' seen' S, Inv env s' σ' t' seen' ∧ 0 < s'.st.nblocks ∧ (∀ x, S x → seen' a x) ∧ Safe env a L E Q p' S ∧
      ∀ x, seen' a x → Moment env Calm a s σ p s' σ' p' x := by
  induction hw with
  | refl => exact ⟨t, seen, _, hI, hnb, fun _ h => h, hp _, fun x hx => ⟨s, σ, p, .refl, .refl, hs x hx ▸ hI.mem.core⟩⟩
  | @other s1 σ1 q act s2 ev hw1 h1 h2 h3 h4 ih =>
    obtain ⟨t1, seen1, S1, i1, i2, i5, i3, i4⟩ := ih
    have hstep : Walks env Calm (During a) s1 σ1 q s2 (σ1.next ev) q := .other .refl h1 h2 h3 h4
    rcases exec_inv i1 h1 h2 h3 with ⟨s2', ev', t2, seen2, e, j1, ⟨j2, j3⟩, _⟩ | ⟨e, he, _⟩
    · injection e with e; injection e with e1 e2; subst e1 e2
      refine ⟨t2, seen2, S1, j1, Nat.lt_of_lt_of_le i2 (exec_nblocks i1 h1 h2 h3), fun x hx => j2 a x h4.1 (i5 x hx), i3, fun x hx => ?_⟩
      rcases j3 a x hx with hx | rfl
      · exact (i4 x hx).step hstep
      · exact ⟨s2, _, q, hw1.trans hstep, .refl, j1.mem.core⟩
    · cases he
  | @root s1 σ1 k hw1 ih =>
    obtain ⟨t1, seen1, S1, i1, i2, i5, i3, i4⟩ := ih
    have hw : World env a s1 (seen1 a) := ⟨⟨σ1, t1, seen1, i1, fun _ => .rfl⟩, hw1.active ha, i2⟩
    exact ⟨t1, seen1, _, i1, i2, fun _ h => h, i3 s1 (seen1 a) hw i5, fun x hx => (i4 x hx).step (.root .refl)⟩
  | @blocks s1 σ1 k hw1 ih =>
    obtain ⟨t1, seen1, S1, i1, i2, i5, i3, i4⟩ := ih
    have hw : World env a s1 (seen1 a) := ⟨⟨σ1, t1, seen1, i1, fun _ => .rfl⟩, hw1.active ha, i2⟩
    exact ⟨t1, seen1, _, i1, i2, fun _ h => h, i3 s1 (seen1 a) hw i5, fun x hx => (i4 x hx).step (.blocks .refl)⟩
  | @load s1 σ1 y k hw1 ih =>
    obtain ⟨t1, seen1, S1, i1, i2, i5, i3, i4⟩ := ih
    have hw : World env a s1 (seen1 a) := ⟨⟨σ1, t1, seen1, i1, fun _ => .rfl⟩, hw1.active ha, i2⟩
    exact ⟨t1, seen1, _, i1, i2, fun _ h => h, (i3 s1 (seen1 a) hw i5).2, fun x hx => (i4 x hx).step (.load .refl)⟩

theorem Begins.inv {c : Call} {s : Sys} {σ : Spec} (h : Begins env Calm a c s σ) :
    Run env Calm s σ ∧ ∃ t seen, Inv env s σ t seen ∧ (∀ x, seen a x → x = t) ∧ (s.proc a).active = true := by
  obtain ⟨s0, σ0, h1, h2, h3, h4, rfl⟩ := h
  obtain ⟨t, seen, hI⟩ := h1.inv
  refine ⟨.step h1 h2 h3 h4, ?_⟩
  simp only [exec] at h4
  split at h4
  · rename_i e c' hp
    simp only [Option.some.injEq, Except.ok.injEq, Prod.mk.injEq, Ev.begun.injEq] at h4
    obtain ⟨rfl, _, rfl⟩ := h4
    refine ⟨t, _, arm_inv hI hp, fun x hx => by rw [upd_same] at hx; exact hx, ?_⟩
    simp only [Sys.set, upd_same]
    cases c' <;> rfl
  · cases h4

theorem Begins.blocks {s : Sys} {σ : Spec} (h : Begins env Calm a .walk s σ) : 0 < s.st.nblocks := by
  obtain ⟨s0, σ0, h1, h2, h3, h4, rfl⟩ := h
  obtain ⟨t, seen, hI⟩ := h1.inv
  simp only [exec] at h4
  split at h4
  · rename_i e c' hp
    simp only [Option.some.injEq, Except.ok.injEq, Prod.mk.injEq, Ev.begun.injEq] at h4
    obtain ⟨rfl, _, rfl⟩ := h4
    have := hI.proc a
    rw [hp] at this
    exact this
  · cases h4

/-- The memory of a tree consists of reachable nodes. -/
theorem cover_live {P : Key → Word → Prop} {st : St} {t : T} {N : Nat → Nat} (hc : CoreN P st t N) {x : Nat} (hx : 0 < t.cover x) :
    ∃ w, LiveNode st w ∧ Occupies st w x := by
  have : ∀ t' : T, 0 < t'.cover x → ∃ q n pfx big ch, At t' q (.node n pfx big ch) ∧ n ≤ x ∧ x < n + nodeSize pfx big ch := by
    intro t'
    induction t' with
    | empty => intro h; simp [T.cover] at h
    | leaf => intro h; simp [T.cover] at h
    | node n pfx big ch ih =>
      intro h
      by_cases h1 : n ≤ x ∧ x < n + nodeSize pfx big ch
      · exact ⟨[], n, pfx, big, ch, .here _, h1.1, h1.2⟩
      · simp only [T.cover, if_neg h1, Nat.zero_add] at h
        have : ∃ c, 0 < (ch c).cover x := by
          apply Classical.byContradiction
          intro hn
          have : (sumB fun c => (ch c).cover x) = sumB fun _ => 0 := sumB_congr fun c => by
            exact Nat.eq_zero_of_not_pos fun h => hn ⟨c, h⟩
          rw [this, sumB_zero] at h
          omega
        obtain ⟨c, hc⟩ := this
        obtain ⟨q, n', pfx', big', ch', g1, g2, g3⟩ := ih c hc
        exact ⟨pfx ++ c :: q, n', pfx', big', ch', .down g1, g2, g3⟩
  obtain ⟨q, n, pfx, big, ch, h1, h2, h3⟩ := this t hx
  obtain ⟨b, hb⟩ := reach_at hc h1 rfl
  have hv := hc.view (b := b) h1
  exact ⟨_, ⟨hb, by rw [ne_eq, wordOf_eq_zero hc.bn (h1.inBlocks hc.inb)]; simp, isLeaf_wordOf hc.bn (h1.inBlocks hc.inb)⟩, hv.occupies_iff.2 ⟨h2, h3⟩⟩
end

end Radix
