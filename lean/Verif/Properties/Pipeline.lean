import Verif.PipelineProof
import Verif.Properties.Serial
/-!
# Property C32: `WriteState` and failing writers
-/
set_option autoImplicit false
namespace Radix

theorem sum_map_one (l : List Nat) : (l.map fun _ => 1).sum = l.length := by
  induction l with
  | nil => rfl
  | cons a l ih => rw [List.map_cons, List.sum_cons, ih, List.length_cons]; omega

theorem sum_map_ind (b : Nat) (l : List Nat) : (l.map fun x => if x = b then 1 else 0).sum = l.count b := by
  induction l with
  | nil => rfl
  | cons a l ih =>
    rw [List.map_cons, List.sum_cons, ih, List.count_cons]
    by_cases h : a = b
    · simp [h]; omega
    · simp [h]

theorem sum_map_zero {f : Nat → Nat} : ∀ {l : List Nat}, (∀ a ∈ l, f a = 0) → (l.map f).sum = 0 := by
  intro l
  induction l with
  | nil => intro _; rfl
  | cons a l ih => intro h; rw [List.map_cons, List.sum_cons, h a List.mem_cons_self, ih fun b hb => h b (List.mem_cons_of_mem _ hb)]

theorem sum_map_pos {f : Nat → Nat} {a : Nat} : ∀ {l : List Nat}, a ∈ l → f a ≤ (l.map f).sum := by
  intro l
  induction l with
  | nil => intro h; cases h
  | cons b l ih =>
    intro h
    rw [List.map_cons, List.sum_cons]
    rcases List.mem_cons.1 h with rfl | h
    · omega
    · have := ih h; omega

/-- If no goroutine can do anything, `writeState` has returned, or the writer waits to report an error and more blocks are left than fit the
channel. -/
theorem PipeInv.stuck {c : PipeCfg} {s : Pipe} (hI : PipeInv c s) (hcpu : 0 < c.cpus) (hst : s.Stuck c) :
    (∃ e, s.main = .ret e) ∨ ∃ b, s.writer = .fail b ∧ s.written.length + 1 + queueCap < c.blocks := by
  have hwork : (∀ w, w < c.cpus → ∀ b, s.workers w ≠ .hold b) → s.main = .join ∨ ∃ e, s.main = .ret e := by
    intro hno
    have hdone : s.main ≠ .feed → ∀ w, w < c.cpus → s.workers w = .done := by
      intro hm w hw
      cases hw' : s.workers w with
      | hold b => exact absurd hw' (hno w hw b)
      | done => rfl
      | recv =>
        by_cases h1 : s.main = .wait
        · have := hst (.leave w)
          simp only [Pipe.exec] at this
          rw [if_pos ⟨hw, hw', .inl h1⟩] at this
          cases this
        · rw [hI.allDone hm h1 w hw] at hw'; cases hw'
    cases hm : s.main with
    | feed =>
      exfalso
      by_cases hf : s.fed = c.blocks
      · have := hst .closeFeed
        simp only [Pipe.exec] at this
        rw [if_pos ⟨hm, hf⟩] at this
        cases this
      · have h1 := hI.fedLe
        cases hw' : s.workers 0 with
        | hold b => exact hno 0 hcpu b hw'
        | done => exact hI.doneOk 0 hcpu hw' hm
        | recv =>
          have := hst (.feed 0)
          simp only [Pipe.exec] at this
          rw [if_pos ⟨hm, by omega, hcpu, hw'⟩] at this
          cases this
    | wait =>
      exfalso
      have := hst .closeQueue
      simp only [Pipe.exec] at this
      rw [if_pos ⟨hm, List.all_eq_true.2 fun w hw => by rw [hdone (by rw [hm]; simp) w (List.mem_range.1 hw)]; rfl⟩] at this
      cases this
    | join => exact .inl rfl
    | ret e => exact .inr ⟨e, rfl⟩
  have hpush : s.queue.length < queueCap → ∀ w, w < c.cpus → ∀ b, s.workers w ≠ .hold b := by
    intro hq w hw b hb
    have := hst (.push w)
    simp only [Pipe.exec] at this
    rw [if_pos ⟨hw, hq⟩, hb] at this
    cases this
  cases hw : s.writer with
  | recv =>
    left
    cases hq : s.queue with
    | cons b q =>
      have := hst .take
      simp only [Pipe.exec] at this
      rw [hw, hq] at this
      cases this
    | nil =>
      rcases hwork (hpush (by rw [hq]; decide)) with h | h
      · have := hst .finish
        simp only [Pipe.exec] at this
        rw [if_pos ⟨hw, hq, h⟩] at this
        cases this
      · exact h
  | head b =>
    have := hst .write
    simp only [Pipe.exec] at this
    rw [hw] at this
    cases this
  | data b =>
    have := hst .write
    simp only [Pipe.exec] at this
    rw [hw] at this
    simp only at this
    split at this <;> cases this
  | fin =>
    left
    have h := hI.finOk (.inl hw)
    cases hm : s.main with
    | feed => exact absurd hm h.2.1
    | wait => exact absurd hm h.2.2
    | join =>
      have := hst .join
      simp only [Pipe.exec] at this
      rw [if_pos hm, hw] at this
      cases this
    | ret e => exact ⟨e, rfl⟩
  | exited x => exact .inl ⟨_, hI.exitOk x hw⟩
  | fail b =>
    by_cases hbig : s.written.length + 1 + queueCap < c.blocks
    · exact .inr ⟨b, rfl, hbig⟩
    · left
      have hno : ∀ w, w < c.cpus → ∀ b, s.workers w ≠ .hold b := by
        intro w hw' b' hb'
        apply Classical.byContradiction
        intro _
        have hj := hI.jobs fun _ => 1
        have hpos : (s.workers w).weight (fun _ => 1) ≤ _ := sum_map_pos (f := fun w => (s.workers w).weight fun _ => 1) (List.mem_range.2 hw')
        have e1 : (s.workers w).weight (fun _ => 1) = 1 := by rw [hb']; rfl
        rw [e1] at hpos
        simp only [Pipe.weight, sum_map_one, hw, Wr.weight, List.length_range] at hj
        have h1 := hI.fedLe
        have h2 : ¬ s.queue.length < queueCap := fun h => hpush h w hw' b' hb'
        omega
      rcases hwork hno with h | h
      · have := hst .join
        simp only [Pipe.exec] at this
        rw [if_pos h, hw] at this
        cases this
      · exact h

/-- The blocks written by a successful `writeState` are all blocks, each once. -/
theorem PipeInv.order {c : PipeCfg} {s : Pipe} (hI : PipeInv c s) (h : s.main = .ret false) : s.written.Perm (List.range c.blocks) := by
  obtain ⟨x, h1, h2⟩ := hI.retOk _ h
  have hx : x = none := by
    cases x with
    | none => rfl
    | some b => cases h2
  subst hx
  have hq := (hI.finOk (.inr h1)).1
  have hf := hI.fedAll (by rw [h]; simp)
  have hd := hI.allDone (by rw [h]; simp) (by rw [h]; simp)
  refine List.perm_iff_count.2 fun b => ?_
  have hj := hI.jobs fun x => if x = b then 1 else 0
  simp only [Pipe.weight, sum_map_ind, hq, h1, Wr.weight, hf, List.count_nil] at hj
  rw [sum_map_zero fun w hw => by rw [hd w (List.mem_range.1 hw)]; rfl] at hj
  omega

/-! ## C32 -/

/-- C32, in full: whenever nothing can happen any more, `WriteState` has returned, with an error if a write has failed.  It does not hold,
see `C32_does_not_hold`.  (By `C32_terminates` every execution gets to this point.) -/
def C32_statement : Prop :=
  ∀ (c : PipeCfg), 0 < c.cpus → ∀ s, PipeRun c s → s.Stuck c → (∃ k, k < s.calls ∧ c.fails k = true) → s.main = .ret true

/-- C32: every execution ends. -/
theorem C32_terminates (c : PipeCfg) : ¬ ∃ f : Nat → Pipe, ∀ n, ∃ act, (f n).exec c act = some (f (n + 1)) := by
  rintro ⟨f, h⟩
  have : ∀ n, (f n).rank c + n ≤ (f 0).rank c := by
    intro n
    induction n with
    | zero => omega
    | succ n ih =>
      obtain ⟨act, he⟩ := h n
      have := exec_rank he
      omega
  have := this ((f 0).rank c + 1)
  omega

/-- C32, for trees with at most 33 blocks (of 2 MB): `WriteState` returns, and it returns an error if and only if a write has failed.  What
is missing: more blocks, see `C32_hangs`. -/
theorem C32_returns_partial {c : PipeCfg} (hcpu : 0 < c.cpus) (hb : c.blocks ≤ 33) {s : Pipe} (h : PipeRun c s) (hst : s.Stuck c) :
    ∃ e, s.main = .ret e ∧ (e = true ↔ ∃ k, k < s.calls ∧ c.fails k = true) := by
  have hq : queueCap = 32 := rfl
  rcases h.inv with hI | ⟨rfl, hp⟩
  · rcases hI.stuck hcpu hst with ⟨e, he⟩ | ⟨b, _, h2⟩
    · refine ⟨e, he, ?_⟩
      obtain ⟨x, h1, h2⟩ := hI.retOk _ he
      rw [hI.failOk, h1, h2]
      cases x <;> simp
    · omega
  · refine ⟨true, by simp only [Pipe.init, hp]; rfl, fun _ => ?_, fun _ => rfl⟩
    obtain ⟨k, h1, h2⟩ := List.any_eq_true.1 hp
    exact ⟨k, List.mem_range.1 h1, h2⟩

/-- C32, for any number of blocks: if no write has failed, `WriteState` returns without an error, and all blocks are written, each once,
in some order. -/
theorem C32_success {c : PipeCfg} (hcpu : 0 < c.cpus) {s : Pipe} (h : PipeRun c s) (hst : s.Stuck c) (hok : ∀ k, k < s.calls → c.fails k = false) :
    s.main = .ret false ∧ s.written.Perm (List.range c.blocks) := by
  rcases h.inv with hI | ⟨rfl, hp⟩
  · have hnf : ¬ ∃ b, s.writer = .fail b ∨ s.writer = .exited (some b) := by
      rw [← hI.failOk]
      rintro ⟨k, h1, h2⟩
      rw [hok k h1] at h2; cases h2
    rcases hI.stuck hcpu hst with ⟨e, he⟩ | ⟨b, h1, _⟩
    · obtain ⟨x, h1, h2⟩ := hI.retOk _ he
      cases x with
      | none => cases h2; exact ⟨he, hI.order he⟩
      | some b => exact absurd ⟨b, .inr h1⟩ hnf
    · exact absurd ⟨b, .inl h1⟩ hnf
  · obtain ⟨k, h1, h2⟩ := List.any_eq_true.1 hp
    rw [hok k (List.mem_range.1 h1)] at h2; cases h2

/-- C32, for any number of blocks: a failing write is reported if at most 32 blocks are left. -/
theorem C32_reports {c : PipeCfg} (hcpu : 0 < c.cpus) {s : Pipe} (h : PipeRun c s) (hst : s.Stuck c)
    (hf : ∃ k, k < s.calls ∧ c.fails k = true) (hleft : c.blocks ≤ s.written.length + 1 + 32) : s.main = .ret true := by
  rcases h.inv with hI | ⟨rfl, hp⟩
  · rcases hI.stuck hcpu hst with ⟨e, he⟩ | ⟨b, _, h2⟩
    · obtain ⟨x, h1, h2⟩ := hI.retOk _ he
      obtain ⟨b, h3⟩ := hI.failOk.1 hf
      rw [h1] at h3
      rcases h3 with h3 | h3
      · cases h3
      · cases h3; rw [he, h2]; rfl
    · have hq : queueCap = 32 := rfl
      omega
  · simp only [Pipe.init, hp]; rfl

/-- `s'` can be reached from `s`. -/
inductive PipeFrom (c : PipeCfg) (s : Pipe) : Pipe → Prop
  | refl : PipeFrom c s s
  | step {s1 act s2} : PipeFrom c s s1 → s1.exec c act = some s2 → PipeFrom c s s2

/-- C32: if a write fails when more than 32 blocks are left, `WriteState` never returns. -/
theorem C32_hangs {c : PipeCfg} {s : Pipe} (h : PipeRun c s) {b : Nat} (hw : s.writer = .fail b) (hleft : s.written.length + 1 + 32 < c.blocks)
    {s' : Pipe} (h' : PipeFrom c s s') : ∀ e, s'.main ≠ .ret e := by
  have hq : queueCap = 32 := rfl
  have hjoin : ∀ {s : Pipe}, PipeInv c s → s.writer = .fail b → s.written.length + 1 + 32 < c.blocks → s.main ≠ .join ∧ ∀ e, s.main ≠ .ret e := by
    intro s hI hw hl
    constructor
    · intro hm
      have h1 := hI.fedAll (by rw [hm]; simp)
      have h2 := hI.allDone (by rw [hm]; simp) (by rw [hm]; simp)
      have hj := hI.jobs fun _ => 1
      simp only [Pipe.weight, sum_map_one, hw, Wr.weight, List.length_range] at hj
      rw [sum_map_zero fun w hw => by rw [h2 w (List.mem_range.1 hw)]; rfl] at hj
      have := hI.cap
      omega
    · intro e he
      obtain ⟨x, h1, _⟩ := hI.retOk _ he
      rw [hw] at h1; cases h1
  have hI : PipeInv c s := by
    rcases h.inv with hI | ⟨rfl, _⟩
    · exact hI
    · cases hw
  have key : PipeInv c s' ∧ s'.writer = .fail b ∧ s'.written.length + 1 + 32 < c.blocks := by
    clear h
    induction h' with
    | refl => exact ⟨hI, hw, hleft⟩
    | @step s1 act s2 _ he ih =>
      obtain ⟨g1, g2, g3⟩ := ih
      refine ⟨exec_pipeInv g1 he, ?_⟩
      have g4 := hjoin g1 g2 g3
      cases act with
      | feed w => simp only [Pipe.exec] at he; split at he <;> cases he; exact ⟨g2, g3⟩
      | closeFeed => simp only [Pipe.exec] at he; split at he <;> cases he; exact ⟨g2, g3⟩
      | push w =>
        simp only [Pipe.exec] at he
        split at he
        · split at he <;> cases he
          exact ⟨g2, g3⟩
        · cases he
      | leave w => simp only [Pipe.exec] at he; split at he <;> cases he; exact ⟨g2, g3⟩
      | closeQueue => simp only [Pipe.exec] at he; split at he <;> cases he; exact ⟨g2, g3⟩
      | take => simp only [Pipe.exec, g2] at he; cases he
      | write => simp only [Pipe.exec, g2] at he; cases he
      | finish => simp only [Pipe.exec, g2] at he; rw [if_neg (by simp)] at he; cases he
      | join => simp only [Pipe.exec] at he; rw [if_neg g4.1] at he; cases he
  exact (hjoin key.1 key.2.1 key.2.2).2

theorem PipeRun.execs {c : PipeCfg} : ∀ {acts : List PipeAct} {s s' : Pipe}, PipeRun c s → s.execs c acts = some s' → PipeRun c s' := by
  intro acts
  induction acts with
  | nil => intro s s' h he; cases he; exact h
  | cons a acts ih =>
    intro s s' h he
    simp only [Pipe.execs, Option.bind_eq_some_iff] at he
    obtain ⟨s1, h1, h2⟩ := he
    exact ih (.step h h1) h2

/-- Every execution can be continued until nothing can happen any more. -/
theorem PipeRun.toStuck {c : PipeCfg} : ∀ (n : Nat) {s : Pipe}, PipeRun c s → s.rank c ≤ n → ∃ s', PipeRun c s' ∧ PipeFrom c s s' ∧ s'.Stuck c := by
  intro n
  induction n with
  | zero =>
    intro s h hr
    refine ⟨s, h, .refl, fun act => ?_⟩
    cases he : s.exec c act with
    | none => rfl
    | some s' => have := exec_rank he; omega
  | succ n ih =>
    intro s h hr
    by_cases hs : s.Stuck c
    · exact ⟨s, h, .refl, hs⟩
    · simp only [Pipe.Stuck, Classical.not_forall] at hs
      obtain ⟨act, hs⟩ := hs
      cases he : s.exec c act with
      | none => exact absurd he hs
      | some s1 =>
        have := exec_rank he
        obtain ⟨s', h1, h2, h3⟩ := ih (.step h he) (by omega)
        refine ⟨s', h1, ?_, h3⟩
        clear h1 h3 ih
        induction h2 with
        | refl => exact .step .refl he
        | step _ he' ih => exact .step ih he'

/-- 34 blocks, one CPU, and every write of a block fails. -/
def badDisk : PipeCfg := ⟨34, 1, 3, fun k => decide (3 ≤ k)⟩

/-- C32 fails: the first block can not be written, and 33 blocks are left. -/
theorem C32_does_not_hold : ¬ C32_statement := by
  intro hC
  have h1 : ∃ s, (Pipe.init badDisk).execs badDisk [.feed 0, .push 0, .take, .write] = some s ∧ s.writer = .fail 0 ∧ s.written = [] := ⟨_, rfl, rfl, rfl⟩
  obtain ⟨s, h2, h3, h4⟩ := h1
  have hr : PipeRun badDisk s := PipeRun.init.execs h2
  obtain ⟨s', g1, g2, g3⟩ := hr.toStuck _ (Nat.le_refl _)
  have g4 := C32_hangs hr h3 (by rw [h4]; decide) g2
  have hI : PipeInv badDisk s := by
    rcases hr.inv with hI | ⟨rfl, _⟩
    · exact hI
    · cases h3
  -- a write has failed
  have hcalls : ∀ {s1}, PipeFrom badDisk s s1 → s.calls ≤ s1.calls := by
    intro s1 h
    induction h with
    | refl => exact Nat.le_refl _
    | @step s1 act s2 _ he ih =>
      refine Nat.le_trans ih ?_
      cases act with
      | feed w => simp only [Pipe.exec] at he; split at he <;> cases he; exact Nat.le_refl _
      | closeFeed => simp only [Pipe.exec] at he; split at he <;> cases he; exact Nat.le_refl _
      | push w =>
        simp only [Pipe.exec] at he
        split at he
        · split at he <;> cases he
          exact Nat.le_refl _
        · cases he
      | leave w => simp only [Pipe.exec] at he; split at he <;> cases he; exact Nat.le_refl _
      | closeQueue => simp only [Pipe.exec] at he; split at he <;> cases he; exact Nat.le_refl _
      | take => simp only [Pipe.exec] at he; split at he <;> cases he; exact Nat.le_refl _
      | write =>
        simp only [Pipe.exec] at he
        split at he
        · cases he; exact Nat.le_succ _
        · split at he <;> cases he <;> exact Nat.le_succ _
        · cases he
      | finish => simp only [Pipe.exec] at he; split at he <;> cases he; exact Nat.le_refl _
      | join =>
        simp only [Pipe.exec] at he
        split at he
        · split at he <;> cases he <;> exact Nat.le_refl _
        · cases he
  obtain ⟨k, k1, k2⟩ := hI.failOk.2 ⟨0, .inl h3⟩
  exact g4 true (hC badDisk (by decide) s' g1 g3 ⟨k, Nat.lt_of_lt_of_le k1 (hcalls g2), k2⟩)

/-- The hypotheses of `C32_returns_partial` and `C32_success`: two CPUs and two blocks, written in the other order. -/
example : ∃ s, PipeRun ⟨2, 2, 3, fun _ => false⟩ s ∧ s.main = .ret false ∧ s.written = [1, 0] ∧ s.Stuck ⟨2, 2, 3, fun _ => false⟩ := by
  have h1 : ∃ s, (Pipe.init ⟨2, 2, 3, fun _ => false⟩).execs ⟨2, 2, 3, fun _ => false⟩
      [.feed 0, .feed 1, .push 1, .closeFeed, .push 0, .take, .write, .write, .take, .leave 0, .leave 1, .write, .write, .closeQueue, .finish, .join] =
      some s ∧ s.main = .ret false ∧ s.written = [1, 0] ∧ s.writer = .exited none ∧ s.workers 0 = .done ∧ s.workers 1 = .done := ⟨_, rfl, rfl, rfl, rfl, rfl, rfl⟩
  obtain ⟨s, h1, h2, h3, h4, h5, h6⟩ := h1
  refine ⟨s, PipeRun.init.execs h1, h2, h3, fun act => ?_⟩
  cases act with
  | feed w => simp only [Pipe.exec]; rw [if_neg (by rw [h2]; simp)]
  | closeFeed => simp only [Pipe.exec]; rw [if_neg (by rw [h2]; simp)]
  | push w =>
    simp only [Pipe.exec]
    split
    · rename_i h
      have : w = 0 ∨ w = 1 := by have h7 : w < 2 := h.1; omega
      rcases this with rfl | rfl
      · rw [h5]
      · rw [h6]
    · rfl
  | leave w => simp only [Pipe.exec]; rw [if_neg (by rw [h2]; simp)]
  | closeQueue => simp only [Pipe.exec]; rw [if_neg (by rw [h2]; simp)]
  | take => simp only [Pipe.exec, h4]
  | write => simp only [Pipe.exec, h4]
  | finish => simp only [Pipe.exec]; rw [if_neg (by rw [h4]; simp)]
  | join => simp only [Pipe.exec]; rw [if_neg (by rw [h2]; simp)]

/-! ## C29 with the goroutines -/

/-- C29: in whatever way the goroutines of a successful `WriteState` are scheduled, the tree loaded from what they have written is the one
saved. -/
theorem C29_any_schedule_partial {env : Env} {s : Sys} {σ : Spec} (h : Run env Calm s σ) (hid : ∀ a, s.proc a = .idle)
    (hr : s.st.baReady = true ∨ s.st.baSent = false) (hm : Machine s.st) {enc : Bytes → Bytes} {dc : Bytes → Option Bytes} (hc : Codec enc dc)
    (empty : Nat → Bool) {c : PipeCfg} (hb : c.blocks = s.st.nextFreeBlock) {p : Pipe} (hp : PipeRun c p) (hret : p.main = .ret false) :
    ∃ L st', loadState dc (stateBytes enc empty s.st s.st.nextFreeBlock p.written) = .ok L ∧ L.start = some st' ∧ SameTree env.fetch s.st st' := by
  have ho : p.written.Perm (List.range c.blocks) := by
    rcases hp.inv with hI | ⟨rfl, hp'⟩
    · exact hI.order hret
    · simp only [Pipe.init, hp'] at hret; cases hret
  rw [hb] at ho
  obtain ⟨L, st', h1, h2, h3, _⟩ := C29_state_round_trip_partial h hid hr hm hc (empty := empty) ⟨s.st, p.written, .inl rfl, ho, rfl⟩
  exact ⟨L, st', h1, h2, h3⟩

end Radix
