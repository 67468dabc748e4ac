import Verif.Model.Admin
import Verif.Properties.Pool
/-!
# C52: `Admin("allocators")`
-/
set_option autoImplicit false
namespace Radix

/-- `Stop`, `Start` and `Len` are called as in C28, and `Admin` is called by goroutines that do not hold an allocator. -/
def AdminOK (s : APool) : AAct → Prop
  | .user act => Disciplined s.pool act
  | .begin t => (s.pool.th t).held = []
  | .admin _ => True

/-! ## Steps -/

theorem Pool.setPc_other (s : Pool) {t u : Nat} (x : PoolPC) (h : u ≠ t) : (s.setPc t x).th u = s.th u := upd_of_ne _ _ h

theorem Pool.stopDone_other (s : Pool) {t u : Nat} (len : Bool) (h : u ≠ t) : (s.stopDone t len).th u = s.th u := by
  unfold Pool.stopDone
  split
  · exact s.setPc_other _ h
  · exact Pool.setPc_other _ _ h

theorem Pool.got_other (s : Pool) {t u : Nat} (i : Nat) (c : GetFor) (h : u ≠ t) : (s.got t i c).th u = s.th u := by
  unfold Pool.got
  split
  · exact upd_of_ne _ _ h
  · exact s.stopDone_other _ h
  · exact s.setPc_other _ h

/-- A step leaves all other goroutines alone. -/
theorem Pool.exec_other {s s' : Pool} {act : PAct} (he : s.exec act = some s') {u : Nat} (hu : u ≠ act.who) : s'.th u = s.th u := by
  cases act with
  | run t =>
    have hu : u ≠ t := hu
    simp only [Pool.exec, Pool.step] at he
    split at he
    · cases he
    · split at he
      · split at he
        · cases he; exact s.setPc_other _ hu
        · cases he; exact s.setPc_other _ hu
      · cases he; exact s.setPc_other _ hu
    · split at he
      · cases he; exact s.setPc_other _ hu
      · cases he; exact Pool.got_other _ _ _ hu
    · split at he
      · cases he; exact s.stopDone_other _ hu
      · injection he with he
        subst he
        split
        · exact Pool.stopDone_other _ _ hu
        · exact Pool.setPc_other _ _ hu
    · cases he; exact s.setPc_other _ hu
    · split at he
      · cases he; exact Pool.setPc_other _ _ hu
      · cases he; exact s.setPc_other _ hu
    · cases he; exact Pool.setPc_other _ _ hu
  | release t i =>
    simp only [Pool.exec] at he
    split at he
    · cases he; exact upd_of_ne _ _ hu
    · cases he
  | beginGet t =>
    simp only [Pool.exec] at he
    split at he
    · cases he; exact s.setPc_other _ hu
    · cases he
  | beginStop t =>
    simp only [Pool.exec] at he
    split at he
    · cases he; exact s.setPc_other _ hu
    · cases he
  | beginLen t =>
    simp only [Pool.exec] at he
    split at he
    · cases he; exact s.setPc_other _ hu
    · cases he
  | beginStart t =>
    simp only [Pool.exec] at he
    split at he
    · cases he; exact Pool.setPc_other _ _ hu
    · cases he

/-- What is known about a call of `Admin`. -/
def AdmOK (n : Nat) (th : Thread) : Option AdmPC → Prop
  | none => True
  | some (.ask k) => th.pc = .idle ∧ th.held.length + k = n
  | some (.wait k) => (th.pc = .idle ∧ th.held.length + k = n) ∨
      (((∃ i, th.pc = .load i .user) ∨ ∃ i, th.pc = .cas i .user) ∧ th.held.length + k + 1 = n)
  | some (.give l) => th.pc = .idle ∧ l.Nodup ∧ ∀ i, i ∈ l ↔ i ∈ th.held

section
variable {n : Nat} {s : APool}

theorem ARun.pool (h : ARun n AdminOK s) : PRun n Disciplined s.pool := by
  induction h with
  | init => exact .init
  | @step s act s' _ hG he ih =>
    have lift : ∀ {pact : PAct} {f : Pool → APool}, (∀ p, (f p).pool = p) → Disciplined s.pool pact →
        (s.pool.exec pact).map f = some s' → PRun n Disciplined s'.pool := by
      intro pact f hf hd he
      obtain ⟨p, h1, h2⟩ := Option.map_eq_some_iff.1 he
      subst h2
      rw [hf]
      exact .step ih hd h1
    cases act with
    | user act =>
      simp only [APool.exec] at he
      split at he
      · exact lift (fun _ => rfl) hG he
      · cases he
    | begin t =>
      simp only [APool.exec] at he
      split at he
      · cases he; exact ih
      · cases he
    | admin t =>
      simp only [APool.exec] at he
      split at he
      · cases he
      · cases he; exact ih
      · exact lift (pact := .beginGet t) (fun _ => rfl) trivial he
      · split at he
        · cases he; exact ih
        · exact lift (pact := .run t) (fun _ => rfl) trivial he
      · cases he; exact ih
      · exact lift (pact := .release t _) (fun _ => rfl) trivial he

theorem ARun.adm (h : ARun n AdminOK s) : ∀ t, AdmOK n (s.pool.th t) (s.adm t) := by
  induction h with
  | init => intro t; trivial
  | @step s act s' hr hG he ih =>
    obtain ⟨⟨taken, hI⟩, hn⟩ := hr.pool.inv
    intro u
    cases act with
    | user act =>
      simp only [APool.exec] at he
      split at he
      · rename_i ha
        obtain ⟨p, h1, h2⟩ := Option.map_eq_some_iff.1 he
        subst h2
        by_cases hu : u = act.who
        · simp only [hu, ha]; trivial
        · simp only [Pool.exec_other h1 hu]; exact ih u
      · cases he
    | begin t =>
      simp only [APool.exec] at he
      split at he
      · rename_i ha
        cases he
        by_cases hu : u = t
        · subst hu
          simp only [upd_same]
          have hh : (s.pool.th u).held = [] := hG
          exact ⟨ha.2, by rw [hh]; simp [hn]⟩
        · simp only [upd_of_ne _ _ hu]; exact ih u
      · cases he
    | admin t =>
      have iht := ih t
      simp only [APool.exec] at he
      split at he
      · cases he
      · rename_i ha
        rw [ha] at iht
        cases he
        by_cases hu : u = t
        · subst hu
          simp only [upd_same]
          refine ⟨iht.1, ?_⟩
          have hl : (s.pool.th u).held.length = s.pool.n := by have := iht.2; omega
          rw [← hl, List.take_length]
          exact ⟨List.pairwise_reverse.2 ((PI.hnd hI u).imp Ne.symm), fun i => List.mem_reverse⟩
        · simp only [upd_of_ne _ _ hu]; exact ih u
      · rename_i k ha
        rw [ha] at iht
        obtain ⟨p, h1, h2⟩ := Option.map_eq_some_iff.1 he
        subst h2
        by_cases hu : u = t
        · subst hu
          simp only [upd_same]
          simp only [Pool.exec, if_pos iht.1] at h1
          cases h1
          have := iht.2
          exact .inr ⟨.inl ⟨0, by simp [Pool.setPc]⟩, by simp [Pool.setPc]; omega⟩
        · simp only [upd_of_ne _ _ hu, Pool.exec_other h1 hu]; exact ih u
      · rename_i k ha
        rw [ha] at iht
        split at he
        · rename_i hp
          cases he
          by_cases hu : u = t
          · subst hu
            simp only [upd_same]
            rcases iht with iht | ⟨⟨i, iht⟩ | ⟨i, iht⟩, _⟩
            · exact iht
            · rw [hp] at iht; cases iht
            · rw [hp] at iht; cases iht
          · simp only [upd_of_ne _ _ hu]; exact ih u
        · rename_i hp
          obtain ⟨p, h1, h2⟩ := Option.map_eq_some_iff.1 he
          subst h2
          by_cases hu : u = t
          · subst hu
            simp only [ha]
            rcases iht with iht | ⟨⟨i, iht⟩ | ⟨i, iht⟩, hl⟩
            · exact absurd iht.1 hp
            · simp only [Pool.exec, Pool.step, iht] at h1
              split at h1
              · split at h1
                · cases h1; exact .inr ⟨.inl ⟨i + 1, by simp [Pool.setPc]⟩, by simpa [Pool.setPc] using hl⟩
                · cases h1; exact .inr ⟨.inr ⟨i, by simp [Pool.setPc]⟩, by simpa [Pool.setPc] using hl⟩
              · cases h1; exact .inr ⟨.inl ⟨0, by simp [Pool.setPc]⟩, by simpa [Pool.setPc] using hl⟩
            · simp only [Pool.exec, Pool.step, iht] at h1
              split at h1
              · cases h1; exact .inr ⟨.inl ⟨i + 1, by simp [Pool.setPc]⟩, by simpa [Pool.setPc] using hl⟩
              · cases h1; exact .inl ⟨by simp [Pool.got], by simp [Pool.got]; omega⟩
          · simp only [Pool.exec_other h1 hu]; exact ih u
      · rename_i ha
        cases he
        by_cases hu : u = t
        · subst hu; simp only [upd_same]; trivial
        · simp only [upd_of_ne _ _ hu]; exact ih u
      · rename_i i l ha
        rw [ha] at iht
        obtain ⟨p, h1, h2⟩ := Option.map_eq_some_iff.1 he
        subst h2
        by_cases hu : u = t
        · subst hu
          simp only [upd_same]
          simp only [Pool.exec] at h1
          split at h1
          · cases h1
            obtain ⟨h3, h4, h5⟩ := iht
            have h4' := List.nodup_cons.1 h4
            refine ⟨by simpa using h3, h4'.2, ?_⟩
            intro j
            simp only [upd_same]
            have := h5 j
            by_cases hj : j = i
            · subst hj
              simp [h4'.1, (PI.hnd hI u).not_mem_erase]
            · rw [List.mem_erase_of_ne hj, ← this]
              simp [hj]
          · cases h1
        · simp only [upd_of_ne _ _ hu, Pool.exec_other h1 hu]; exact ih u

/-- While `Admin` prints the statistics it has all allocators, nobody else has one, and no `Len` is adding up their counters. -/
theorem C52_prints_alone_partial (h : ARun n AdminOK s) {t : Nat} {l : List Nat} (ha : s.adm t = some (.give l)) (hl : l.length = n) :
    (∀ i, i < n → i ∈ (s.pool.th t).held) ∧ (∀ u, u ≠ t → (s.pool.th u).held = []) ∧ (0 < n → ∀ u, (s.pool.th u).pc ≠ .read) := by
  obtain ⟨⟨taken, hI⟩, hn⟩ := h.pool.inv
  have h1 := h.adm t
  rw [ha] at h1
  obtain ⟨_, h2, h3⟩ := h1
  have hall : ∀ i, i < n → i ∈ (s.pool.th t).held := by
    intro i hi
    refine (h3 i).1 (all_mem n h2 ?_ hl i hi)
    intro j hj
    have := (PI.heldOk hI ((h3 j).1 hj)).1
    omega
  refine ⟨hall, ?_, ?_⟩
  · intro u hu
    cases hh : (s.pool.th u).held with
    | nil => rfl
    | cons i r =>
      have hi : i ∈ (s.pool.th u).held := by rw [hh]; exact List.mem_cons_self
      have h4 := PI.heldOk hI hi
      exact absurd (hall i (by have := h4.1; omega)) (h4.2.2 t (Ne.symm hu))
  · intro h0 u hu
    have h4 := PI.phase hI u
    simp only [hu] at h4
    have h5 : taken.length = s.pool.n := h4.2.1
    have h6 := hall 0 h0
    exact absurd (PI.all hI h5 (by omega : 0 < s.pool.n)) (PI.heldOk hI h6).2.1

/-! ## Does it return? -/

/-- A call of `Admin("allocators")` returns, once all other goroutines have given back their allocators: the calls of `Admin` under way can all be finished. -/
def C52_statement : Prop :=
  ∀ (n : Nat) (s : APool), ARun n AdminOK s → s.pool.stopped = false → (∀ u, s.adm u = none → (s.pool.th u).pc = .idle ∧ (s.pool.th u).held = []) →
    ∃ acts s', (∀ act ∈ acts, ∃ u, act = .admin u) ∧ s.execs acts = some s' ∧ ∀ u, s'.adm u = none

theorem APool.execs_append : ∀ {as bs : List AAct} {s s1 s2 : APool}, s.execs as = some s1 → s1.execs bs = some s2 → s.execs (as ++ bs) = some s2
  | [], _, _, _, _, h1, h2 => by cases h1; exact h2
  | a :: as, bs, s, s1, s2, h1, h2 => by
    simp only [APool.execs, Option.bind_eq_some_iff, List.cons_append] at h1 ⊢
    obtain ⟨s', h3, h4⟩ := h1
    exact ⟨s', h3, APool.execs_append h4 h2⟩

theorem ARun.execs {G : APool → AAct → Prop} : ∀ {acts : List AAct} {s s' : APool}, ARun n G s → (∀ a ∈ acts, ∀ s, G s a) →
    s.execs acts = some s' → ARun n G s'
  | [], _, _, h, _, he => by cases he; exact h
  | a :: acts, s, s', h, hG, he => by
    simp only [APool.execs, Option.bind_eq_some_iff] at he
    obtain ⟨s1, h1, h2⟩ := he
    exact ARun.execs (.step h (hG a List.mem_cons_self s) h1) (fun b hb => hG b (List.mem_cons_of_mem _ hb)) h2

/-- `slots.get` from wherever it is. -/
theorem Pool.get_from {t i : Nat} {c : GetFor} : ∀ (d : Nat) {s : Pool} {j : Nat}, s.n - j = d → i < s.n → s.busy i = false → (s.th t).pc = .load j c →
    ∃ k i', i' < s.n ∧ s.busy i' = false ∧ s.execs (List.replicate k (.run t)) = some ({ s with busy := upd s.busy i' true }.got t i' c) := by
  have hgot : ∀ (s : Pool) x i', ({ s.setPc t x with busy := upd s.busy i' true } : Pool).got t i' c = ({ s with busy := upd s.busy i' true } : Pool).got t i' c := by
    intro s x i'
    rcases c with _ | ⟨left, len⟩
    · simp [Pool.got, Pool.setPc, upd_upd]
    · cases left
      · cases len <;> simp [Pool.got, Pool.stopDone, Pool.setPc, upd_upd]
      · simp [Pool.got, Pool.setPc, upd_upd]
  intro d
  induction d with
  | zero =>
    intro s j hd hi hb hp
    have h1 : s.exec (.run t) = some (s.setPc t (.load 0 c)) := by
      simp only [Pool.exec, Pool.step, hp]
      rw [if_neg (by omega)]
    obtain ⟨k, i', _, g2, g3, g4⟩ := Pool.get_alone (t := t) (c := c) i (s := s.setPc t (.load 0 c)) (j := 0) (by omega) (by omega) hi hb (by simp [Pool.setPc])
    refine ⟨k + 1, i', g2, g3, ?_⟩
    simp only [List.replicate, Pool.execs, h1, Option.bind_some]
    rw [g4]
    exact congrArg some (hgot s _ i')
  | succ d ih =>
    intro s j hd hi hb hp
    have hj : j < s.n := by omega
    cases hbj : s.busy j with
    | false =>
      obtain ⟨k, i', _, g2, g3, g4⟩ := Pool.get_alone (t := t) (c := c) 0 (s := s) (j := j) (by omega) (Nat.le_refl _) hj hbj hp
      exact ⟨k, i', g2, g3, g4⟩
    | true =>
      have h1 : s.exec (.run t) = some (s.setPc t (.load (j + 1) c)) := by
        simp only [Pool.exec, Pool.step, hp, if_pos hj, hbj, if_true]
      obtain ⟨k, i', g2, g3, g4⟩ := ih (s := s.setPc t (.load (j + 1) c)) (j := j + 1) (by show s.n - (j + 1) = d; omega) hi hb (by simp [Pool.setPc])
      refine ⟨k + 1, i', g2, g3, ?_⟩
      simp only [List.replicate, Pool.execs, h1, Option.bind_some]
      rw [g4]
      exact congrArg some (hgot s _ i')

theorem APool.execs_run {t m : Nat} : ∀ (k : Nat) {s : APool} {p : Pool}, s.adm t = some (.wait m) → s.pool.execs (List.replicate k (.run t)) = some p →
    s.execs (List.replicate k (.admin t)) = some { s with pool := p }
  | 0, s, p, _, h => by cases h; rfl
  | k + 1, s, p, ha, h => by
    simp only [List.replicate, Pool.execs, Option.bind_eq_some_iff] at h
    obtain ⟨p1, h1, h2⟩ := h
    have hne : (s.pool.th t).pc ≠ .idle := by
      intro h0
      simp only [Pool.exec, Pool.step, h0] at h1
      cases h1
    have h3 : s.exec (.admin t) = some { s with pool := p1 } := by
      simp only [APool.exec, ha, if_neg hne, h1]
      rfl
    have h4 := APool.execs_run k (s := { s with pool := p1 }) ha h2
    simp only [List.replicate, APool.execs, h3, Option.bind_some]
    exact h4

/-- Only `t` uses the pool. -/
structure Sole (s : APool) (t : Nat) : Prop where
  stopped : s.pool.stopped = false
  other : ∀ u, u ≠ t → s.adm u = none ∧ (s.pool.th u).pc = .idle ∧ (s.pool.th u).held = []

theorem Sole.free {t : Nat} (h : ARun n AdminOK s) (ho : Sole s t) (ht : (s.pool.th t).pc.admin = false) (hl : (s.pool.th t).held.length < n) :
    ∃ i, i < s.pool.n ∧ s.pool.busy i = false := by
  obtain ⟨⟨taken, hI⟩, hn⟩ := h.pool.inv
  have hr := PI.rest hI (by
    intro u
    by_cases hu : u = t
    · subst hu; exact ht
    · simp only [(ho.other u hu).2.1]; rfl)
  rw [ho.stopped] at hr
  have hr : taken = [] := hr
  have hex : ∃ i, i < s.pool.n ∧ i ∉ (s.pool.th t).held := by
    apply Classical.byContradiction
    intro hc
    have := length_of_all s.pool.n (l := (s.pool.th t).held) fun i hi => Classical.byContradiction fun h' => hc ⟨i, hi, h'⟩
    omega
  obtain ⟨i, hi, hni⟩ := hex
  refine ⟨i, hi, ?_⟩
  cases hb : s.pool.busy i with
  | false => rfl
  | true =>
    rcases (PI.busyIff hI i).1 hb with h' | ⟨u, h'⟩
    · rw [hr] at h'; cases h'
    · by_cases hu : u = t
      · subst hu; exact absurd h' hni
      · simp only [(ho.other u hu).2.2] at h'; cases h'

theorem finish_give {t : Nat} : ∀ (l : List Nat) {s : APool}, ARun n AdminOK s → Sole s t → s.adm t = some (.give l) →
    ∃ k s', s.execs (List.replicate k (.admin t)) = some s' ∧ ∀ u, s'.adm u = none := by
  intro l
  induction l with
  | nil =>
    intro s h ho ha
    refine ⟨1, { s with adm := upd s.adm t none }, ?_, ?_⟩
    · simp [List.replicate, APool.execs, APool.exec, ha]
    · intro u
      by_cases hu : u = t
      · subst hu; exact upd_same _ _ _
      · simp only [upd_of_ne _ _ hu]; exact (ho.other u hu).1
  | cons i l ih =>
    intro s h ho ha
    have h1 := h.adm t
    rw [ha] at h1
    have hi : i ∈ (s.pool.th t).held := (h1.2.2 i).1 List.mem_cons_self
    have h2 : ∃ s', s.exec (.admin t) = some s' ∧ s'.adm = upd s.adm t (some (.give l)) ∧ s'.pool.stopped = s.pool.stopped ∧
        ∀ u, u ≠ t → s'.pool.th u = s.pool.th u := by
      simp only [APool.exec, ha, Pool.exec]
      rw [if_pos ⟨h1.1, hi⟩]
      exact ⟨_, rfl, rfl, rfl, fun u hu => upd_of_ne _ _ hu⟩
    obtain ⟨s', h3, h4, h5, h6⟩ := h2
    obtain ⟨k, s2, g1, g2⟩ := ih (s := s') (.step h (act := .admin t) trivial h3) ⟨by rw [h5]; exact ho.stopped, by
      intro u hu
      rw [h4, upd_of_ne _ _ hu, h6 u hu]
      exact ho.other u hu⟩ (by rw [h4]; exact upd_same _ _ _)
    exact ⟨k + 1, s2, by simp only [List.replicate, APool.execs, h3, Option.bind_some]; exact g1, g2⟩

theorem finish_steps {t k : Nat} {s s' : APool} (h : s.execs (List.replicate k (.admin t)) = some s')
    (hf : ∃ k s2, s'.execs (List.replicate k (.admin t)) = some s2 ∧ ∀ u, s2.adm u = none) :
    ∃ k s2, s.execs (List.replicate k (.admin t)) = some s2 ∧ ∀ u, s2.adm u = none := by
  obtain ⟨k2, s2, h1, h2⟩ := hf
  refine ⟨k + k2, s2, ?_, h2⟩
  rw [← List.replicate_append_replicate]
  exact APool.execs_append h h1

/-- `get` within `Admin`, undisturbed. -/
theorem wait_got {t m : Nat} (h : ARun n AdminOK s) (ho : Sole s t) (ha : s.adm t = some (.wait m)) :
    ∃ k s', s.execs (List.replicate k (.admin t)) = some s' ∧ s'.adm = upd s.adm t (some (.ask m)) ∧ s'.pool.stopped = s.pool.stopped ∧
      ∀ u, u ≠ t → s'.pool.th u = s.pool.th u := by
  have last : ∀ {s : APool}, s.adm t = some (.wait m) → (s.pool.th t).pc = .idle → s.execs [.admin t] = some { s with adm := upd s.adm t (some (.ask m)) } := by
    intro s ha hp
    simp [APool.execs, APool.exec, ha, if_pos hp]
  have fin : ∀ {k i : Nat}, s.pool.execs (List.replicate k (.run t)) = some ({ s.pool with busy := upd s.pool.busy i true }.got t i .user) →
      ∃ k s', s.execs (List.replicate k (.admin t)) = some s' ∧ s'.adm = upd s.adm t (some (.ask m)) ∧ s'.pool.stopped = s.pool.stopped ∧
        ∀ u, u ≠ t → s'.pool.th u = s.pool.th u := by
    intro k i hg
    have h1 := APool.execs_run k ha hg
    have h2 := last (s := ⟨({ s.pool with busy := upd s.pool.busy i true } : Pool).got t i .user, s.adm⟩) ha (by simp [Pool.got])
    have h3 := APool.execs_append h1 h2
    refine ⟨k + 1, ⟨({ s.pool with busy := upd s.pool.busy i true } : Pool).got t i .user, upd s.adm t (some (.ask m))⟩, ?_, rfl, rfl, ?_⟩
    · rw [← List.replicate_append_replicate]; exact h3
    · intro u hu; exact Pool.got_other { s.pool with busy := upd s.pool.busy i true } i .user hu
  have h1 := h.adm t
  rw [ha] at h1
  rcases h1 with h1 | ⟨⟨j, hp⟩ | ⟨j, hp⟩, hl⟩
  · exact ⟨1, { s with adm := upd s.adm t (some (.ask m)) }, last ha h1.1, rfl, rfl, fun _ _ => rfl⟩
  · obtain ⟨i, hi, hb⟩ := ho.free h (by rw [hp]; rfl) (by omega)
    obtain ⟨k, i', _, _, hg⟩ := Pool.get_from (t := t) (c := .user) _ rfl hi hb hp
    exact fin hg
  · obtain ⟨i, hi, hb⟩ := ho.free h (by rw [hp]; rfl) (by omega)
    cases hbj : s.pool.busy j with
    | false =>
      refine fin (k := 1) (i := j) ?_
      simp only [List.replicate, Pool.execs, Pool.exec, Pool.step, hp, hbj]
      rfl
    | true =>
      have h2 : s.pool.exec (.run t) = some (s.pool.setPc t (.load (j + 1) .user)) := by
        simp only [Pool.exec, Pool.step, hp, hbj, if_true]
      obtain ⟨k, i', _, _, hg⟩ := Pool.get_from (t := t) (c := .user) _ (s := s.pool.setPc t (.load (j + 1) .user)) (j := j + 1) rfl hi hb (by simp [Pool.setPc])
      refine fin (k := k + 1) (i := i') ?_
      simp only [List.replicate, Pool.execs, h2, Option.bind_some]
      rw [hg]
      simp [Pool.got, Pool.setPc, upd_upd]

theorem finish_ask {t : Nat} : ∀ (m : Nat) {s : APool}, ARun n AdminOK s → Sole s t → s.adm t = some (.ask m) →
    ∃ k s', s.execs (List.replicate k (.admin t)) = some s' ∧ ∀ u, s'.adm u = none := by
  intro m
  induction m with
  | zero =>
    intro s h ho ha
    have h1 : s.execs (List.replicate 1 (.admin t)) =
        some { s with adm := upd s.adm t (some (.give ((s.pool.th t).held.take s.pool.n).reverse)) } := by
      simp [List.replicate, APool.execs, APool.exec, ha]
    refine finish_steps h1 (finish_give _ (h.execs (fun a ha s => by rw [List.eq_of_mem_replicate ha]; trivial) h1) ⟨ho.stopped, ?_⟩ (upd_same _ _ _))
    intro u hu
    simp only [upd_of_ne _ _ hu]
    exact ho.other u hu
  | succ m ih =>
    intro s h ho ha
    have hp := h.adm t
    rw [ha] at hp
    have h1 : s.execs (List.replicate 1 (.admin t)) = some ⟨s.pool.setPc t (.load 0 .user), upd s.adm t (some (.wait m))⟩ := by
      simp [List.replicate, APool.execs, APool.exec, ha, Pool.exec, hp.1]
    have hr := h.execs (fun a ha s => by rw [List.eq_of_mem_replicate ha]; trivial) h1
    have ho1 : Sole ⟨s.pool.setPc t (.load 0 .user), upd s.adm t (some (.wait m))⟩ t := by
      refine ⟨ho.stopped, ?_⟩
      intro u hu
      simp only [upd_of_ne _ _ hu, Pool.setPc_other _ _ hu]
      exact ho.other u hu
    obtain ⟨k, s2, g1, g2, g3, g4⟩ := wait_got hr ho1 (upd_same _ _ _)
    refine finish_steps h1 (finish_steps g1 (ih (hr.execs (fun a ha s => by rw [List.eq_of_mem_replicate ha]; trivial) g1) ⟨by rw [g3]; exact ho1.stopped, ?_⟩ ?_))
    · intro u hu
      rw [g2, upd_of_ne _ _ hu, g4 u hu]
      exact ho1.other u hu
    · rw [g2]; exact upd_same _ _ _

/-- **C52** for a single call of `Admin`: it returns if it is not disturbed.  Missing: calls that overlap, see below. -/
theorem C52_returns_partial (h : ARun n AdminOK s) {t : Nat} (hs : s.pool.stopped = false)
    (ho : ∀ u, u ≠ t → s.adm u = none) (hi : ∀ u, s.adm u = none → (s.pool.th u).pc = .idle ∧ (s.pool.th u).held = []) :
    ∃ k s', s.execs (List.replicate k (.admin t)) = some s' ∧ ∀ u, s'.adm u = none := by
  have hsole : Sole s t := ⟨hs, fun u hu => ⟨ho u hu, hi u (ho u hu)⟩⟩
  cases ha : s.adm t with
  | none =>
    refine ⟨0, s, rfl, ?_⟩
    intro u
    by_cases hu : u = t
    · subst hu; exact ha
    · exact ho u hu
  | some pc =>
    cases pc with
    | ask m => exact finish_ask m h hsole ha
    | give l => exact finish_give l h hsole ha
    | wait m =>
      obtain ⟨k, s2, g1, g2, g3, g4⟩ := wait_got h hsole ha
      refine finish_steps g1 (finish_ask m (h.execs (fun a ha s => by rw [List.eq_of_mem_replicate ha]; trivial) g1) ⟨by rw [g3]; exact hs, ?_⟩ ?_)
      · intro u hu
        rw [g2, upd_of_ne _ _ hu, g4 u hu]
        exact hsole.other u hu
      · rw [g2]; exact upd_same _ _ _

/-! ## Two calls at a time -/

def APool.after (s : APool) (acts : List AAct) : APool := (s.execs acts).getD s

theorem APool.execs_after {s : APool} {acts : List AAct} (h : (s.execs acts).isSome) : s.execs acts = some (s.after acts) := by
  unfold APool.after
  cases he : s.execs acts with
  | none => rw [he] at h; cases h
  | some s' => rfl

/-- Two goroutines call `Admin`; each obtains one of the two allocators and waits for the other. -/
def adminBoth : List AAct :=
  [.begin 0, .begin 1, .admin 0, .admin 0, .admin 0, .admin 1, .admin 1, .admin 1, .admin 1, .admin 0, .admin 0, .admin 1, .admin 1]

/-- Both slots are taken, and `0` and `1` are waiting for the next one. -/
structure Stuck (s : APool) : Prop where
  n : s.pool.n = 2
  busy : ∀ i, i < 2 → s.pool.busy i = true
  wait : ∀ t, t < 2 → s.adm t = some (.wait 0) ∧ ∃ i, (s.pool.th t).pc = .load i .user
  other : ∀ u, 2 ≤ u → s.adm u = none

theorem Stuck.step {s s' : APool} (h : Stuck s) {u : Nat} (he : s.exec (.admin u) = some s') : Stuck s' := by
  by_cases hu : u < 2
  · obtain ⟨ha, i, hp⟩ := h.wait u hu
    have : ∃ j, s' = { s with pool := s.pool.setPc u (.load j .user) } := by
      simp only [APool.exec, ha, hp, Pool.exec, Pool.step, h.n] at he
      rw [if_neg (by intro h; cases h)] at he
      split at he
      · rename_i hi
        rw [if_pos (h.busy i hi)] at he
        cases he; exact ⟨_, rfl⟩
      · cases he; exact ⟨_, rfl⟩
    obtain ⟨j, rfl⟩ := this
    refine ⟨h.n, h.busy, ?_, h.other⟩
    intro t ht
    refine ⟨(h.wait t ht).1, ?_⟩
    by_cases htu : t = u
    · subst htu; exact ⟨j, by simp [Pool.setPc]⟩
    · simp only [Pool.setPc_other _ _ htu]; exact (h.wait t ht).2
  · simp only [APool.exec, h.other u (by omega)] at he
    cases he

theorem Stuck.execs : ∀ {acts : List AAct} {s s' : APool}, Stuck s → (∀ act ∈ acts, ∃ u, act = .admin u) → s.execs acts = some s' → Stuck s'
  | [], _, _, h, _, he => by cases he; exact h
  | a :: acts, s, s', h, hu, he => by
    simp only [APool.execs, Option.bind_eq_some_iff] at he
    obtain ⟨s1, h1, h2⟩ := he
    obtain ⟨u, rfl⟩ := hu a List.mem_cons_self
    exact Stuck.execs (h.step h1) (fun b hb => hu b (List.mem_cons_of_mem _ hb)) h2

theorem adminBoth_run : ARun 2 AdminOK ((APool.new 2).after adminBoth) := by
  have e : adminBoth = [.begin 0, .begin 1] ++ adminBoth.drop 2 := rfl
  have h1 : ARun 2 AdminOK _ := .step .init (act := .begin 0) rfl rfl
  have h2 : ARun 2 AdminOK _ := .step h1 (act := .begin 1) rfl rfl
  exact h2.execs (acts := adminBoth.drop 2) (by
    intro a ha s
    simp only [adminBoth, List.drop, List.mem_cons, List.not_mem_nil, or_false] at ha
    rcases ha with rfl | rfl | rfl | rfl | rfl | rfl | rfl | rfl | rfl | rfl | rfl <;> trivial) (APool.execs_after (s := APool.new 2) (acts := adminBoth) (by decide))

theorem adminBoth_other (u : Nat) (hu : 2 ≤ u) : ((APool.new 2).after adminBoth).adm u = none ∧ (((APool.new 2).after adminBoth).pool.th u) = {} := by
  have h0 : u ≠ 0 := by omega
  have h1 : u ≠ 1 := by omega
  constructor <;>
    simp [APool.after, adminBoth, APool.execs, APool.exec, APool.new, Pool.exec, Pool.step, Pool.new, Pool.setPc, Pool.got, upd, h0, h1]

theorem adminBoth_stuck : Stuck ((APool.new 2).after adminBoth) where
  n := by decide
  busy := by decide
  wait t ht := by
    have : t = 0 ∨ t = 1 := by omega
    rcases this with rfl | rfl
    · exact ⟨by decide, 0, by decide⟩
    · exact ⟨by decide, 0, by decide⟩
  other u hu := (adminBoth_other u hu).1

/-- Two calls of `Admin("allocators")` at the same time wait for each other for ever. -/
theorem C52_does_not_hold : ¬ C52_statement := by
  intro h
  obtain ⟨acts, s', h1, h2, h3⟩ := h 2 _ adminBoth_run (by decide) (by
    intro u hu
    have : ¬ u < 2 := by
      intro hlt
      rw [(adminBoth_stuck.wait u hlt).1] at hu
      cases hu
    rw [(adminBoth_other u (by omega)).2]
    exact ⟨rfl, rfl⟩)
  have h4 := ((adminBoth_stuck.execs h1 h2).wait 0 (by decide)).1
  rw [h3] at h4
  cases h4

/-- A call of `Admin` that has all allocators, while another goroutine waits for one. -/
def adminDemo : List AAct :=
  [.begin 0, .admin 0, .user (.beginGet 5), .admin 0, .admin 0, .user (.run 5), .admin 0, .admin 0, .admin 0, .admin 0, .admin 0, .admin 0, .admin 0]

example : ((APool.new 2).execs adminDemo).map (fun s => (s.adm 0, (s.pool.th 0).held, (s.pool.th 5).pc)) =
    some (some (.give [0, 1]), [1, 0], .load 1 .user) := by decide

example : ∃ s, ARun 2 AdminOK s ∧ s.adm 0 = some (.give [0, 1]) ∧ (s.pool.th 5).pc = .load 1 .user := by
  refine ⟨(APool.new 2).after adminDemo, ?_, by decide, by decide⟩
  have h1 : ARun 2 AdminOK _ := .step .init (act := .begin 0) rfl rfl
  exact h1.execs (acts := adminDemo.drop 1) (by
    intro a ha s
    simp only [adminDemo, List.drop, List.mem_cons, List.not_mem_nil, or_false] at ha
    rcases ha with rfl | rfl | rfl | rfl | rfl | rfl | rfl | rfl | rfl | rfl | rfl | rfl <;> trivial) (APool.execs_after (s := APool.new 2) (acts := adminDemo) (by decide))

end

end Radix
