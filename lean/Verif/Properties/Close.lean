import Verif.Model.Close
import Verif.Properties.Admin
/-!
# Property C55: `Close`
-/
set_option autoImplicit false
namespace Radix

/-- `Start` and `Len` are not called any more once `Close` is called. -/
def NoStart (s : CPool) : CAct → Prop
  | .user (.beginStart _) | .user (.beginLen _) => s.closed = false ∧ ∀ t, s.cl t = none
  | _ => True

/-- C55 in full: `Close` does not panic while there are blocks left, and when the block goroutine has returned, no operation waits for a block. -/
def C55_statement : Prop := ∀ n s, CRun n NoStart s → (s.crash = true → maxBlockCount ≤ s.next) ∧ (s.g = .gone → ∀ t, s.want t = false)

/-- Calls of `Stop`, `Start`, `Len` and `Close` do not overlap, `Len` is not called on a stopped tree, `Close` is called only once, and `Start` and
`Len` not any more afterwards. -/
def CloseOK (s : CPool) (act : CAct) : Prop :=
  NoStart s act ∧ match act with
    | .user a => Disciplined s.pool a
    | .beginClose t => Disciplined s.pool (.beginStop t) ∧ s.closed = false ∧ ∀ u, s.cl u = none
    | _ => True

/-- In the call of `Stop` (not made by `Len`). -/
def PoolPC.stopping : PoolPC → Prop
  | .stop false => True
  | .load _ (.stop _ false) => True
  | .cas _ (.stop _ false) => True
  | _ => False

theorem stopping_step {s s' : Pool} {t : Nat} (h : (s.th t).pc.stopping) (he : s.exec (.run t) = some s') :
    (s'.th t).pc.stopping ∨ (s'.th t).pc = .idle ∧ s'.quiet = true := by
  simp only [Pool.exec, Pool.step] at he
  generalize hpc : (s.th t).pc = pc at h he
  cases pc with
  | idle => exact h.elim
  | read => exact h.elim
  | start => exact h.elim
  | puts => exact h.elim
  | stop len =>
    cases len with
    | true => exact h.elim
    | false =>
      simp only at he
      split at he
      · cases he; exact .inr ⟨by simp [Pool.stopDone, Pool.setPc], rfl⟩
      · split at he
        · cases he; exact .inr ⟨by simp [Pool.stopDone, Pool.setPc], rfl⟩
        · cases he; exact .inl (by simp [Pool.setPc, PoolPC.stopping])
  | load i c =>
    cases c with
    | user => exact h.elim
    | stop left len =>
      cases len with
      | true => exact h.elim
      | false =>
        simp only at he
        split at he
        · split at he <;> (cases he; exact .inl (by simp [Pool.setPc, PoolPC.stopping]))
        · cases he; exact .inl (by simp [Pool.setPc, PoolPC.stopping])
  | cas i c =>
    cases c with
    | user => exact h.elim
    | stop left len =>
      cases len with
      | true => exact h.elim
      | false =>
        simp only at he
        split at he
        · cases he; exact .inl (by simp [Pool.setPc, PoolPC.stopping])
        · cases he
          cases left with
          | zero => exact .inr ⟨by simp [Pool.got, Pool.stopDone, Pool.setPc], rfl⟩
          | succ left => exact .inl (by simp [Pool.got, Pool.setPc, PoolPC.stopping])

/-- The state of a call of `Close`. -/
def ClOK (s : CPool) (t : Nat) : Prop :=
  match s.cl t with
  | none => True
  | some .stop => s.closed = false ∧ ((s.pool.th t).pc.stopping ∨ (s.pool.th t).pc = .idle ∧ s.pool.quiet = true)
  | some .close => s.closed = false ∧ (s.pool.th t).pc = .idle ∧ s.pool.quiet = true

structure ShutInv (n : Nat) (s : CPool) : Prop where
  run : PRun n Disciplined s.pool
  cl : ∀ t, ClOK s t
  one : ∀ t u, s.cl t ≠ none → s.cl u ≠ none → t = u
  quiet : s.closed = true → s.pool.quiet = true
  want : ∀ t, s.want t = true → s.cl t = none ∧ (s.pool.th t).pc = .idle ∧ (s.pool.th t).held ≠ []
  gone : s.g = .gone → s.closed = true
  crash : s.crash = true → maxBlockCount ≤ s.next

section
variable {n : Nat} {s : CPool}

theorem CRun.inv (h : CRun n CloseOK s) : ShutInv n s := by
  induction h with
  | init =>
    exact ⟨.init, fun _ => trivial, fun _ _ h => absurd rfl h, fun h => (by cases h), fun _ h => (by cases h), fun h => (by cases h), fun h => (by cases h)⟩
  | @step s act s' hr hG he ih =>
    obtain ⟨hG1, hG2⟩ := hG
    simp only [CPool.exec] at he
    split at he
    · cases he
    have hcr : s.crash = false := by rename_i h; simpa using h
    -- a step of the pool by goroutine `t`
    have quiet : ∀ {pact : PAct} {p : Pool}, s.pool.exec pact = some p → (∀ t, pact = .beginStart t → s.closed = false ∧ ∀ t, s.cl t = none) →
        (s.closed = true ∨ ∃ t, s.cl t ≠ none) → s.pool.quiet = true → p.quiet = true := by
      intro pact p hp h1 h2 hq
      refine C28_quiet_until_start hp hq fun t e => ?_
      obtain ⟨h3, h4⟩ := h1 t e
      rcases h2 with h2 | ⟨u, h2⟩
      · rw [h3] at h2; cases h2
      · exact h2 (h4 u)
    cases act with
    | user pact =>
      simp only at he hG2
      split at he
      · rename_i hc
        obtain ⟨p, hp, e⟩ := Option.map_eq_some_iff.1 he
        subst e
        have hst : ∀ t, pact = .beginStart t → s.closed = false ∧ ∀ t, s.cl t = none := by
          intro t e; subst e; exact hG1
        have hoth : ∀ t, t ≠ pact.who → p.th t = s.pool.th t := fun t ht => Pool.exec_other hp ht
        refine ⟨.step ih.run hG2 hp, fun t => ?_, ih.one, fun h => ?_, fun t h => ?_, ih.gone, ih.crash⟩
        · have h1 := ih.cl t
          unfold ClOK at h1 ⊢
          simp only
          split
          · trivial
          · rename_i e
            rw [e] at h1
            have ht : t ≠ pact.who := by intro e'; rw [e', hc.1] at e; cases e
            refine ⟨h1.1, ?_⟩
            rw [hoth t ht]
            rcases h1.2 with h2 | ⟨h2, h3⟩
            · exact .inl h2
            · exact .inr ⟨h2, quiet hp hst (.inr ⟨t, by rw [e]; simp⟩) h3⟩
          · rename_i e
            rw [e] at h1
            have ht : t ≠ pact.who := by intro e'; rw [e', hc.1] at e; cases e
            refine ⟨h1.1, ?_⟩
            rw [hoth t ht]
            exact ⟨h1.2.1, quiet hp hst (.inr ⟨t, by rw [e]; simp⟩) h1.2.2⟩
        · exact quiet hp hst (.inl h) (ih.quiet h)
        · have ht : t ≠ pact.who := by
            intro e'
            simp only at h
            rw [e', hc.2] at h; cases h
          obtain ⟨h1, h2, h3⟩ := ih.want t h
          refine ⟨h1, ?_⟩
          simp only
          rw [hoth t ht]
          exact ⟨h2, h3⟩
      · cases he
    | need t =>
      simp only at he
      split at he
      · rename_i hc
        cases he
        refine ⟨ih.run, ih.cl, ih.one, ih.quiet, fun u h => ?_, ih.gone, ih.crash⟩
        by_cases e : u = t
        · subst e; exact ⟨hc.1, hc.2.2⟩
        · simp only [upd_of_ne _ _ e] at h
          exact ih.want u h
      · cases he
    | make =>
      simp only at he
      split at he
      · split at he
        · cases he
          exact ⟨ih.run, ih.cl, ih.one, ih.quiet, ih.want, fun h => (by cases h), ih.crash⟩
        · cases he
          exact ⟨ih.run, ih.cl, ih.one, ih.quiet, ih.want, ih.gone, fun _ => Nat.le_of_not_lt (by assumption)⟩
      · cases he
    | send t =>
      simp only at he
      split at he
      · cases he
        refine ⟨ih.run, ih.cl, ih.one, ih.quiet, fun u h => ?_, fun h => (by cases h), fun h => ?_⟩
        · by_cases e : u = t
          · subst e; simp at h
          · simp only [upd_of_ne _ _ e] at h
            exact ih.want u h
        · simp only at h
          rw [hcr] at h; cases h
      · cases he
    | exit =>
      simp only at he
      split at he
      · rename_i hc
        cases he
        exact ⟨ih.run, ih.cl, ih.one, ih.quiet, ih.want, fun _ => hc.2, ih.crash⟩
      · cases he
    | beginClose t =>
      simp only at he hG2
      split at he
      · rename_i hc
        obtain ⟨p, hp, e⟩ := Option.map_eq_some_iff.1 he
        subst e
        obtain ⟨hd, hcl, hnone⟩ := hG2
        have hoth : ∀ u, u ≠ t → p.th u = s.pool.th u := fun u hu => Pool.exec_other hp hu
        refine ⟨.step ih.run hd hp, fun u => ?_, fun u v hu hv => ?_, fun h => ?_, fun u h => ?_, ih.gone, ih.crash⟩
        · by_cases e : u = t
          · subst e
            simp only [ClOK, upd_same]
            refine ⟨hcl, .inl ?_⟩
            simp only [Pool.exec] at hp
            split at hp
            · cases hp; simp [Pool.setPc, PoolPC.stopping]
            · cases hp
          · simp only [ClOK, upd_of_ne _ _ e, hnone u]
        · have : ∀ u, upd s.cl t (some .stop) u ≠ none → u = t := by
            intro u hu
            by_cases e : u = t
            · exact e
            · rw [upd_of_ne _ _ e] at hu; exact absurd (hnone u) hu
          rw [this u hu, this v hv]
        · simp only at h
          rw [hcl] at h; cases h
        · by_cases e : u = t
          · subst e
            simp only at h
            rw [hc.2] at h; cases h
          · simp only [upd_of_ne _ _ e]
            rw [hoth u e]
            exact ih.want u h
      · cases he
    | close t =>
      simp only at he
      have ht := ih.cl t
      unfold ClOK at ht
      split at he
      · cases he
      · rename_i hc
        rw [hc] at ht
        split at he
        · rename_i hidle
          cases he
          refine ⟨ih.run, fun u => ?_, fun u v hu hv => ?_, ih.quiet, fun u h => ?_, ih.gone, ih.crash⟩
          · by_cases e : u = t
            · subst e
              simp only [ClOK, upd_same]
              refine ⟨ht.1, hidle, ?_⟩
              rcases ht.2 with h | h
              · rw [hidle] at h; exact h.elim
              · exact h.2
            · have := ih.cl u
              simp only [ClOK, upd_of_ne _ _ e] at this ⊢
              exact this
          · have : ∀ u, upd s.cl t (some .close) u ≠ none → s.cl u ≠ none := by
              intro u hu
              by_cases e : u = t
              · subst e; rw [hc]; simp
              · rwa [upd_of_ne _ _ e] at hu
            exact ih.one u v (this u hu) (this v hv)
          · obtain ⟨h1, h2⟩ := ih.want u h
            have e : u ≠ t := by intro e; rw [e, hc] at h1; cases h1
            simp only [upd_of_ne _ _ e]
            exact ⟨h1, h2⟩
        · obtain ⟨p, hp, e⟩ := Option.map_eq_some_iff.1 he
          subst e
          rename_i hidle
          have hoth : ∀ u, u ≠ t → p.th u = s.pool.th u := fun u hu => Pool.exec_other hp hu
          refine ⟨.step (act := .run t) ih.run trivial hp, fun u => ?_, ih.one, fun h => ?_, fun u h => ?_, ih.gone, ih.crash⟩
          · by_cases e : u = t
            · subst e
              simp only [ClOK, hc]
              refine ⟨ht.1, ?_⟩
              rcases ht.2 with h | h
              · exact stopping_step h hp
              · exact absurd h.1 hidle
            · have h0 : s.cl u = none := by
                cases h : s.cl u with
                | none => rfl
                | some x => exact absurd (ih.one u t (by rw [h]; simp) (by rw [hc]; simp)) e
              simp only [ClOK, h0]
          · simp only at h
            rw [ht.1] at h; cases h
          · obtain ⟨h1, h2⟩ := ih.want u h
            have e : u ≠ t := by intro e; rw [e, hc] at h1; cases h1
            refine ⟨h1, ?_⟩
            simp only
            rw [hoth u e]
            exact h2
      · rename_i hc
        rw [hc] at ht
        split at he
        · rename_i h; rw [ht.1] at h; cases h
        · cases he
          refine ⟨ih.run, fun u => ?_, fun u v hu hv => ?_, fun _ => ht.2.2, fun u h => ?_, fun _ => rfl, ih.crash⟩
          · have h0 : upd s.cl t none u = none := by
              by_cases e : u = t
              · subst e; simp
              · rw [upd_of_ne _ _ e]
                cases h : s.cl u with
                | none => rfl
                | some x => exact absurd (ih.one u t (by rw [h]; simp) (by rw [hc]; simp)) e
            simp only [ClOK, h0]
          · refine absurd ?_ hu
            by_cases e : u = t
            · subst e; simp
            · simp only [upd_of_ne _ _ e]
              cases h : s.cl u with
              | none => rfl
              | some x => exact absurd (ih.one u t (by rw [h]; simp) (by rw [hc]; simp)) e
          · obtain ⟨h1, h2⟩ := ih.want u h
            have e : u ≠ t := by intro e; rw [e, hc] at h1; cases h1
            simp only [upd_of_ne _ _ e]
            exact ⟨h1, h2⟩

/-- **C55** with the restriction: there is no panic while there are blocks left; once `done` is closed, nobody has an allocator, nobody waits for a
block, the block goroutine cannot do anything but return, and at most two steps of it are left. -/
theorem C55_close_partial (h : CRun n CloseOK s) :
    (s.crash = true → maxBlockCount ≤ s.next) ∧
    (s.closed = true → (∀ t, (s.pool.th t).held = [] ∧ s.want t = false ∧ s.exec (.send t) = none) ∧
      (s.next < maxBlockCount → ∃ acts s', acts.length ≤ 2 ∧ (∀ a ∈ acts, a = .make ∨ a = .exit) ∧ s.execs acts = some s' ∧ s'.g = .gone)) := by
  have hI := h.inv
  refine ⟨hI.crash, fun hc => ⟨fun t => ?_, fun hn => ?_⟩⟩
  · have hh := (C28_stop_is_exclusive_partial hI.run).2 (hI.quiet hc) t
    have hw : s.want t = false := by
      rw [← Bool.not_eq_true]
      exact fun hw => (hI.want t hw).2.2 hh
    refine ⟨hh, hw, ?_⟩
    simp [CPool.exec, hw]
  · have hcr : s.crash = false := by
      rw [← Bool.not_eq_true]
      intro h
      have := hI.crash h
      omega
    cases hg : s.g with
    | gone => exact ⟨[], s, by simp, by simp, rfl, hg⟩
    | offer => exact ⟨[.exit], { s with g := .gone }, by simp, by simp, by simp [CPool.execs, CPool.exec, hcr, hg, hc], rfl⟩
    | make =>
      refine ⟨[.make, .exit], { s with g := .gone }, by simp, by simp, ?_, rfl⟩
      simp [CPool.execs, CPool.exec, hcr, hg, hc, hn]

end

/-- When the block goroutine has returned, nobody ever gets a block again (whatever is called): who waits for a block waits for ever. -/
theorem C55_gone {s s' : CPool} {acts : List CAct} (he : s.execs acts = some s') (hg : s.g = .gone) :
    s'.g = .gone ∧ s'.next = s.next ∧ ∀ t, s.want t = true → s'.want t = true := by
  have one : ∀ {s s' : CPool} {act : CAct}, s.exec act = some s' → s.g = .gone → s'.g = .gone ∧ s'.next = s.next ∧ ∀ t, s.want t = true → s'.want t = true := by
    intro s s' act he hg
    simp only [CPool.exec] at he
    split at he
    · cases he
    cases act with
    | user pact =>
      simp only at he
      split at he
      · obtain ⟨p, hp, e⟩ := Option.map_eq_some_iff.1 he
        subst e
        exact ⟨hg, rfl, fun _ h => h⟩
      · cases he
    | need t =>
      simp only at he
      split at he
      · cases he
        refine ⟨hg, rfl, fun u h => ?_⟩
        by_cases e : u = t
        · subst e; simp
        · simpa only [upd_of_ne _ _ e] using h
      · cases he
    | make => simp [hg] at he
    | send t => simp [hg] at he
    | exit => simp [hg] at he
    | beginClose t =>
      simp only at he
      split at he
      · obtain ⟨p, hp, e⟩ := Option.map_eq_some_iff.1 he
        subst e
        exact ⟨hg, rfl, fun _ h => h⟩
      · cases he
    | close t =>
      simp only at he
      split at he
      · cases he
      · split at he
        · cases he; exact ⟨hg, rfl, fun _ h => h⟩
        · obtain ⟨p, hp, e⟩ := Option.map_eq_some_iff.1 he
          subst e
          exact ⟨hg, rfl, fun _ h => h⟩
      · split at he <;> (cases he; exact ⟨hg, rfl, fun _ h => h⟩)
  induction acts generalizing s with
  | nil => cases he; exact ⟨hg, rfl, fun _ h => h⟩
  | cons act acts ih =>
    obtain ⟨s1, h1, h2⟩ := Option.bind_eq_some_iff.1 he
    obtain ⟨g1, g2, g3⟩ := one h1 hg
    obtain ⟨g4, g5, g6⟩ := ih h2 g1
    exact ⟨g4, g5.trans g2, fun t h => g6 t (g3 t h)⟩

theorem CPool.execs_append : ∀ {as bs : List CAct} {s s1 s2 : CPool}, s.execs as = some s1 → s1.execs bs = some s2 → s.execs (as ++ bs) = some s2
  | [], _, _, _, _, h1, h2 => by cases h1; exact h2
  | a :: as, bs, s, s1, s2, h1, h2 => by
    obtain ⟨s0, h3, h4⟩ := Option.bind_eq_some_iff.1 h1
    show (s.exec a).bind _ = _
    rw [h3]
    exact CPool.execs_append h4 h2

theorem CPool.execs_run {t : Nat} : ∀ (k : Nat) {s : CPool} {p : Pool}, s.crash = false → s.cl t = some .stop →
    s.pool.execs (List.replicate k (.run t)) = some p → s.execs (List.replicate k (.close t)) = some { s with pool := p }
  | 0, s, p, _, _, h => by cases h; rfl
  | k + 1, s, p, hc, ha, h => by
    simp only [List.replicate, Pool.execs, Option.bind_eq_some_iff] at h
    obtain ⟨p1, h1, h2⟩ := h
    have hne : (s.pool.th t).pc ≠ .idle := by
      intro h0
      simp only [Pool.exec, Pool.step, h0] at h1
      cases h1
    have h3 : s.exec (.close t) = some { s with pool := p1 } := by
      simp only [CPool.exec, hc, ha, if_neg hne, h1]
      rfl
    have h4 := CPool.execs_run k (s := { s with pool := p1 }) hc ha h2
    simp only [List.replicate, CPool.execs, h3, Option.bind_some]
    exact h4

/-- `Close` returns once all allocators have been released, if it is not disturbed. -/
theorem C55_returns_partial {n : Nat} {s : CPool} (h : CRun n CloseOK s) {t : Nat} (hcr : s.crash = false) (hc : s.closed = false) (hcl : ∀ u, s.cl u = none)
    (ha : ∀ u, (s.pool.th u).pc.admin = false) (hp : (s.pool.th t).pc = .idle) (hh : ∀ u, (s.pool.th u).held = []) :
    ∃ k s', s.execs (.beginClose t :: List.replicate k (.close t)) = some s' ∧ s'.closed = true ∧ s'.cl t = none := by
  have hI := h.inv
  have hw : s.want t = false := by
    rw [← Bool.not_eq_true]
    exact fun hw => (hI.want t hw).2.2 (hh t)
  obtain ⟨k, p, h1, h2, -, -⟩ := C28_stop_returns hI.run ha hp hh
  obtain ⟨p1, h3, h4⟩ := Option.bind_eq_some_iff.1 h1
  have e1 : s.exec (.beginClose t) = some { s with pool := p1, cl := upd s.cl t (some .stop) } := by
    simp [CPool.exec, hcr, hcl t, hw, h3]
  have e2 := CPool.execs_run (t := t) k (s := { s with pool := p1, cl := upd s.cl t (some .stop) }) hcr (by simp) h4
  have e3 : ({ s with pool := p, cl := upd s.cl t (some .stop) } : CPool).execs [.close t, .close t] =
      some { s with pool := p, cl := upd (upd (upd s.cl t (some .stop)) t (some .close)) t none, closed := true } := by
    simp [CPool.execs, CPool.exec, hcr, h2, hc]
  refine ⟨k + 2, { s with pool := p, cl := upd (upd (upd s.cl t (some .stop)) t (some .close)) t none, closed := true }, ?_, rfl, by simp⟩
  rw [← List.replicate_append_replicate]
  show (s.exec _).bind _ = _
  rw [e1]
  exact CPool.execs_append e2 e3

/-! ## The restriction is needed -/

def CPool.after (s : CPool) (acts : List CAct) : CPool := (s.execs acts).getD s

theorem CPool.execs_after {s : CPool} {acts : List CAct} (h : (s.execs acts).isSome) : s.execs acts = some (s.after acts) := by
  unfold CPool.after
  cases e : s.execs acts with
  | none => rw [e] at h; cases h
  | some s' => rfl

theorem CRun.execs {n : Nat} {G : CPool → CAct → Prop} : ∀ {acts : List CAct} {s s' : CPool}, CRun n G s → (∀ a ∈ acts, ∀ s, G s a) →
    s.execs acts = some s' → CRun n G s'
  | [], _, _, h, _, he => by cases he; exact h
  | a :: as, s, s', h, hG, he => by
    obtain ⟨s1, h1, h2⟩ := Option.bind_eq_some_iff.1 he
    exact CRun.execs (.step h (hG a (by simp) s) h1) (fun b hb => hG b (by simp [hb])) h2

/-- One allocator, which goroutine 0 has obtained.  `Stop` of goroutine 1 waits for it, therefore `Stop` of the `Close` of goroutine 2 returns at once.
The block goroutine returns, and then goroutine 0 needs a block. -/
def closeHang : List CAct :=
  [.make] ++ [.user (.beginGet 0), .user (.run 0), .user (.run 0), .user (.beginStop 1), .user (.run 1), .user (.run 1)] ++
    [.beginClose 2, .close 2, .close 2, .close 2, .exit, .need 0]

/-- `Close` twice. -/
def closeTwice : List CAct := .beginClose 0 :: List.replicate 5 (.close 0) ++ [.beginClose 0, .close 0, .close 0, .close 0]

theorem C55_hangs : ∃ s, CRun 1 NoStart s ∧ s.closed = true ∧ s.g = .gone ∧ s.want 0 = true ∧
    ∀ acts s', s.execs acts = some s' → s'.want 0 = true := by
  refine ⟨(CPool.new 1).after closeHang, CRun.execs .init ?_ (CPool.execs_after (by decide)), by decide, by decide, by decide, ?_⟩
  · intro a ha s
    revert a
    simp [closeHang, NoStart]
  · intro acts s' he
    exact (C55_gone he (by decide)).2.2 0 (by decide)

theorem C55_twice : ∃ s, CRun 1 NoStart s ∧ s.crash = true ∧ s.next = 0 := by
  refine ⟨(CPool.new 1).after closeTwice, CRun.execs .init ?_ (CPool.execs_after (by decide)), by decide, by decide⟩
  intro a ha s
  revert a
  simp [closeTwice, NoStart]

/-- When the tree is started again after `Close`, everything works until a block is needed. -/
def closeRestart : List CAct :=
  [.make] ++ .beginClose 0 :: List.replicate 5 (.close 0) ++ [.exit, .user (.beginStart 0), .user (.run 0), .user (.run 0), .user (.beginGet 1), .user (.run 1), .user (.run 1), .need 1]

theorem C55_restart : ∃ s, CRun 1 (fun _ _ => True) s ∧ s.want 1 = true ∧ ∀ acts s', s.execs acts = some s' → s'.want 1 = true := by
  refine ⟨(CPool.new 1).after closeRestart, CRun.execs .init (fun _ _ _ => trivial) (CPool.execs_after (by decide)), by decide, ?_⟩
  intro acts s' he
  exact (C55_gone he (by decide)).2.2 1 (by decide)

theorem C55_does_not_hold : ¬ C55_statement := by
  intro h
  obtain ⟨s, h1, -, h2, h3, -⟩ := C55_hangs
  have := (h 1 s h1).2 h2 0
  rw [h3] at this
  cases this

/-- The hypotheses of `C55_returns_partial` are met in a new tree, and after the call those of `C55_close_partial`. -/
example : ∃ s s' k, CRun 2 CloseOK s ∧ s.crash = false ∧ s.closed = false ∧ (∀ u, s.cl u = none) ∧ (∀ u, (s.pool.th u).pc.admin = false) ∧
    (s.pool.th 0).pc = .idle ∧ (∀ u, (s.pool.th u).held = []) ∧ s.execs (.beginClose 0 :: List.replicate k (.close 0)) = some s' ∧
    CRun 2 CloseOK s' ∧ s'.closed = true := by
  obtain ⟨k, s', h1, h2, h3⟩ := C55_returns_partial (n := 2) (s := CPool.new 2) (t := 0) .init rfl rfl (fun _ => rfl) (fun _ => rfl) rfl (fun _ => rfl)
  refine ⟨CPool.new 2, s', k, .init, rfl, rfl, fun _ => rfl, fun _ => rfl, rfl, fun _ => rfl, h1, ?_, h2⟩
  obtain ⟨s1, h4, h5⟩ := Option.bind_eq_some_iff.1 h1
  refine CRun.execs (.step .init (act := .beginClose 0) ⟨trivial, fun _ => rfl, rfl, fun _ => rfl⟩ h4) ?_ h5
  intro a ha s
  rw [List.eq_of_mem_replicate ha]
  exact ⟨trivial, trivial⟩

end Radix
