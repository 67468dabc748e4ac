import Verif.Model.Pipeline
/-!
# The goroutines of `writeState`: invariant
-/
set_option autoImplicit false
namespace Radix

/-- Weight of the job of a worker. -/
def Wk.weight (g : Nat → Nat) : Wk → Nat
  | .hold b => g b
  | _ => 0

/-- Weight of the job of the writer. -/
def Wr.weight (g : Nat → Nat) : Wr → Nat
  | .head b => g b
  | .data b => g b
  | .fail b => g b
  | .exited (some b) => g b
  | _ => 0

/-- Weight of all jobs that main has passed on. -/
def Pipe.weight (c : PipeCfg) (g : Nat → Nat) (s : Pipe) : Nat :=
  (s.written.map g).sum + (s.queue.map g).sum + s.writer.weight g + ((List.range c.cpus).map fun w => (s.workers w).weight g).sum

theorem sum_upd_weight {α : Type} (g : α → Nat) (f : Nat → α) (a : Nat) (v : α) : ∀ n, a < n →
    ((List.range n).map fun w => g (upd f a v w)).sum + g (f a) = ((List.range n).map fun w => g (f w)).sum + g v := by
  intro n
  induction n with
  | zero => intro h; omega
  | succ n ih =>
    intro h
    simp only [List.range_succ, List.map_append, List.sum_append, List.map_cons, List.map_nil, List.sum_cons, List.sum_nil]
    by_cases e : n = a
    · subst e
      have h1 : ((List.range n).map fun w => g (upd f n v w)) = (List.range n).map fun w => g (f w) := by
        refine List.map_congr_left fun x hx => ?_
        have := List.mem_range.1 hx
        rw [upd_of_ne _ _ (by omega)]
      rw [h1, upd_same]
      omega
    · rw [upd_of_ne _ _ e]
      have := ih (by omega)
      omega

structure PipeInv (c : PipeCfg) (s : Pipe) : Prop where
  jobs : ∀ g, s.weight c g = ((List.range s.fed).map g).sum
  fedLe : s.fed ≤ c.blocks
  fedAll : s.main ≠ .feed → s.fed = c.blocks
  doneOk : ∀ w, w < c.cpus → s.workers w = .done → s.main ≠ .feed
  allDone : s.main ≠ .feed → s.main ≠ .wait → ∀ w, w < c.cpus → s.workers w = .done
  finOk : s.writer = .fin ∨ s.writer = .exited none → s.queue = [] ∧ s.main ≠ .feed ∧ s.main ≠ .wait
  retOk : ∀ e, s.main = .ret e → ∃ x, s.writer = .exited x ∧ e = x.isSome
  exitOk : ∀ x, s.writer = .exited x → s.main = .ret x.isSome
  cap : s.queue.length ≤ queueCap
  failOk : (∃ k, k < s.calls ∧ c.fails k = true) ↔ ∃ b, s.writer = .fail b ∨ s.writer = .exited (some b)

theorem init_inv {c : PipeCfg} (h : (List.range c.pre).any c.fails = false) : PipeInv c (Pipe.init c) := by
  have hm : (Pipe.init c).main = .feed := by simp only [Pipe.init, h]; rfl
  refine ⟨?_, ?_, ?_, ?_, ?_, ?_, ?_, ?_, ?_, ?_⟩
  · intro g
    have : ∀ l : List Nat, (l.map fun w => ((Pipe.init c).workers w).weight g).sum = 0 := by
      intro l
      induction l with
      | nil => rfl
      | cons a l ih => rw [List.map_cons, List.sum_cons, ih]; rfl
    unfold Pipe.weight
    rw [this]
    rfl
  · exact Nat.zero_le _
  · exact fun h => absurd hm h
  · intro w _ h; cases h
  · exact fun h => absurd hm h
  · rintro (h | h) <;> cases h
  · intro e h; rw [hm] at h; cases h
  · intro x h; cases h
  · exact Nat.zero_le _
  · constructor
    · rintro ⟨k, h1, h2⟩
      have : (List.range c.pre).any c.fails = true := List.any_eq_true.2 ⟨k, List.mem_range.2 h1, h2⟩
      rw [h] at this; cases this
    · rintro ⟨b, h | h⟩ <;> cases h

theorem exec_pipeInv {c : PipeCfg} {s s' : Pipe} {act : PipeAct} (hI : PipeInv c s) (he : s.exec c act = some s') : PipeInv c s' := by
  cases act with
  | feed w =>
    simp only [Pipe.exec] at he
    split at he
    · rename_i h
      obtain ⟨h1, h2, h3, h4⟩ := h
      cases he
      refine ⟨?_, ?_, ?_, ?_, ?_, ?_, ?_, ?_, ?_, ?_⟩
      · intro g
        have := hI.jobs g
        have hs := sum_upd_weight (Wk.weight g) s.workers w (.hold s.fed) c.cpus h3
        rw [h4] at hs
        simp only [Wk.weight] at hs
        simp only [Pipe.weight, Wk.weight, List.range_succ, List.map_append, List.sum_append, List.map_cons, List.map_nil, List.sum_cons, List.sum_nil] at this ⊢
        omega
      · show s.fed + 1 ≤ _; omega
      · exact fun h => absurd h1 h
      · intro v hv h
        by_cases e : v = w
        · subst e; simp only [upd_same] at h; cases h
        · simp only [upd_of_ne _ _ e] at h
          exact hI.doneOk v hv h
      · exact fun h => absurd h1 h
      · exact hI.finOk
      · exact hI.retOk
      · exact hI.exitOk
      · exact hI.cap
      · exact hI.failOk
    · cases he
  | closeFeed =>
    simp only [Pipe.exec] at he
    split at he
    · rename_i h
      obtain ⟨h1, h2⟩ := h
      cases he
      refine ⟨hI.jobs, hI.fedLe, fun _ => h2, fun _ _ _ => by simp, fun _ h => absurd rfl h, ?_, ?_, ?_, hI.cap, hI.failOk⟩
      · intro h; exact absurd h1 (hI.finOk h).2.1
      · intro e h; cases h
      · intro x h
        have := hI.exitOk x h
        rw [h1] at this; cases this
    · cases he
  | push w =>
    simp only [Pipe.exec] at he
    split at he
    · rename_i h
      obtain ⟨h1, h2⟩ := h
      split at he
      · rename_i b hb
        cases he
        have hnd : s.main = .feed ∨ s.main = .wait := by
          apply Classical.byContradiction
          intro hn
          simp only [not_or] at hn
          have := hI.allDone hn.1 hn.2 w h1
          rw [hb] at this; cases this
        refine ⟨?_, hI.fedLe, hI.fedAll, ?_, ?_, ?_, hI.retOk, hI.exitOk, ?_, hI.failOk⟩
        · intro g
          have := hI.jobs g
          have hs := sum_upd_weight (Wk.weight g) s.workers w .recv c.cpus h1
          rw [hb] at hs
          simp only [Wk.weight] at hs
          simp only [Pipe.weight, Wk.weight, List.map_append, List.sum_append, List.map_cons, List.map_nil, List.sum_cons, List.sum_nil] at this ⊢
          omega
        · intro v hv h
          by_cases e : v = w
          · subst e; simp only [upd_same] at h; cases h
          · simp only [upd_of_ne _ _ e] at h
            exact hI.doneOk v hv h
        · intro g1 g2
          rcases hnd with h | h
          · exact absurd h g1
          · exact absurd h g2
        · intro h
          have := hI.finOk h
          rcases hnd with h | h
          · exact absurd h this.2.1
          · exact absurd h this.2.2
        · simp only [List.length_append, List.length_cons, List.length_nil]; omega
      · cases he
    · cases he
  | leave w =>
    simp only [Pipe.exec] at he
    split at he
    · rename_i h
      obtain ⟨h1, h2, h3⟩ := h
      cases he
      have hnf : s.main ≠ .feed := by rcases h3 with h | h <;> rw [h] <;> simp
      refine ⟨?_, hI.fedLe, hI.fedAll, fun _ _ _ => hnf, ?_, hI.finOk, hI.retOk, hI.exitOk, hI.cap, hI.failOk⟩
      · intro g
        have := hI.jobs g
        have hs := sum_upd_weight (Wk.weight g) s.workers w .done c.cpus h1
        rw [h2] at hs
        simp only [Wk.weight] at hs
        simp only [Pipe.weight, Wk.weight] at this ⊢
        omega
      · intro g1 g2 v hv
        by_cases e : v = w
        · subst e; simp
        · simp only [upd_of_ne _ _ e]
          exact hI.allDone g1 g2 v hv
    · cases he
  | closeQueue =>
    simp only [Pipe.exec] at he
    split at he
    · rename_i h
      obtain ⟨h1, h2⟩ := h
      cases he
      have hd : ∀ w, w < c.cpus → s.workers w = .done := by
        intro w hw
        have := List.all_eq_true.1 h2 w (List.mem_range.2 hw)
        simpa using this
      refine ⟨hI.jobs, hI.fedLe, fun _ => hI.fedAll (by rw [h1]; simp), fun _ _ _ => by simp, fun _ _ => hd, ?_, ?_, ?_, hI.cap, hI.failOk⟩
      · intro h; exact absurd h1 (hI.finOk h).2.2
      · intro e h; cases h
      · intro x h
        have := hI.exitOk x h
        rw [h1] at this; cases this
    · cases he
  | take =>
    simp only [Pipe.exec] at he
    split at he
    · rename_i b q h1 h2
      cases he
      refine ⟨?_, hI.fedLe, hI.fedAll, hI.doneOk, hI.allDone, ?_, ?_, ?_, ?_, ?_⟩
      · intro g
        have := hI.jobs g
        simp only [Pipe.weight, h1, h2, Wr.weight, List.map_cons, List.sum_cons] at this ⊢
        omega
      · rintro (h | h) <;> cases h
      · intro e h
        obtain ⟨x, h3, _⟩ := hI.retOk e h
        rw [h1] at h3; cases h3
      · intro x h; cases h
      · have := hI.cap
        rw [h2] at this
        simp only [List.length_cons] at this
        show q.length ≤ _
        omega
      · refine Iff.trans hI.failOk ?_
        rw [h1]
        constructor
        · rintro ⟨b, h | h⟩ <;> cases h
        · rintro ⟨b, h | h⟩ <;> cases h
    · cases he
  | write =>
    have hnr : ∀ {e}, s.main = .ret e → ∀ {b}, s.writer ≠ .head b ∧ s.writer ≠ .data b := by
      intro e h b
      obtain ⟨x, h3, _⟩ := hI.retOk e h
      rw [h3]; simp
    have hcalls : ∀ (w' : Wr), (∀ b, s.writer ≠ .fail b ∧ s.writer ≠ .exited (some b)) →
        ((∃ b, w' = .fail b ∨ w' = .exited (some b)) ↔ c.fails s.calls = true) →
        ((∃ k, k < s.calls + 1 ∧ c.fails k = true) ↔ ∃ b, w' = .fail b ∨ w' = .exited (some b)) := by
      intro w' h1 h2
      rw [h2]
      constructor
      · rintro ⟨k, h3, h4⟩
        by_cases e : k = s.calls
        · rw [← e]; exact h4
        · obtain ⟨b, h5 | h5⟩ := hI.failOk.1 ⟨k, by omega, h4⟩
          · exact absurd h5 (h1 b).1
          · exact absurd h5 (h1 b).2
      · exact fun h => ⟨s.calls, by omega, h⟩
    simp only [Pipe.exec] at he
    split at he
    · rename_i b hb
      cases he
      by_cases hf : c.fails s.calls = true
      · refine ⟨?_, hI.fedLe, hI.fedAll, hI.doneOk, hI.allDone, ?_, ?_, ?_, hI.cap, ?_⟩
        · intro g
          have := hI.jobs g
          simp only [Pipe.weight, hb, hf, if_true, Wr.weight] at this ⊢
          omega
        · simp only [hf, if_true]; rintro (h | h) <;> cases h
        · intro e h; exact absurd hb (hnr h).1
        · simp only [hf, if_true]; intro x h; cases h
        · refine hcalls _ (by rw [hb]; simp) ?_
          simp [hf]
      · refine ⟨?_, hI.fedLe, hI.fedAll, hI.doneOk, hI.allDone, ?_, ?_, ?_, hI.cap, ?_⟩
        · intro g
          have := hI.jobs g
          simp only [Pipe.weight, hb, if_neg hf, Wr.weight] at this ⊢
          omega
        · simp only [if_neg hf]; rintro (h | h) <;> cases h
        · intro e h; exact absurd hb (hnr h).1
        · simp only [if_neg hf]; intro x h; cases h
        · refine hcalls _ (by rw [hb]; simp) ?_
          simp [hf]
    · rename_i b hb
      split at he
      · rename_i hf
        cases he
        refine ⟨?_, hI.fedLe, hI.fedAll, hI.doneOk, hI.allDone, ?_, ?_, ?_, hI.cap, ?_⟩
        · intro g
          have := hI.jobs g
          simp only [Pipe.weight, hb, Wr.weight] at this ⊢
          omega
        · rintro (h | h) <;> cases h
        · intro e h; exact absurd hb (hnr h).2
        · intro x h; cases h
        · refine hcalls _ (by rw [hb]; simp) ?_
          simp [hf]
      · rename_i hf
        cases he
        refine ⟨?_, hI.fedLe, hI.fedAll, hI.doneOk, hI.allDone, ?_, ?_, ?_, hI.cap, ?_⟩
        · intro g
          have := hI.jobs g
          simp only [Pipe.weight, hb, Wr.weight, List.map_append, List.sum_append, List.map_cons, List.map_nil, List.sum_cons, List.sum_nil] at this ⊢
          omega
        · rintro (h | h) <;> cases h
        · intro e h; exact absurd hb (hnr h).2
        · intro x h; cases h
        · refine hcalls _ (by rw [hb]; simp) ?_
          simp [hf]
    · cases he
  | finish =>
    simp only [Pipe.exec] at he
    split at he
    · rename_i h
      obtain ⟨h1, h2, h3⟩ := h
      cases he
      refine ⟨?_, hI.fedLe, hI.fedAll, hI.doneOk, hI.allDone, ?_, ?_, ?_, hI.cap, ?_⟩
      · intro g
        have := hI.jobs g
        simp only [Pipe.weight, h1, Wr.weight] at this ⊢
        omega
      · exact fun _ => ⟨h2, by show s.main ≠ _; rw [h3]; simp, by show s.main ≠ _; rw [h3]; simp⟩
      · intro e h; rw [h3] at h; cases h
      · intro x h; cases h
      · refine Iff.trans hI.failOk ?_
        rw [h1]
        constructor
        · rintro ⟨b, h | h⟩ <;> cases h
        · rintro ⟨b, h | h⟩ <;> cases h
    · cases he
  | join =>
    simp only [Pipe.exec] at he
    split at he
    · rename_i h3
      have h4 := hI.fedAll (by rw [h3]; simp)
      have h5 := hI.allDone (by rw [h3]; simp) (by rw [h3]; simp)
      split at he
      · rename_i b hb
        cases he
        refine ⟨?_, hI.fedLe, fun _ => h4, fun _ _ _ => by simp, fun _ _ => h5, ?_, ?_, ?_, hI.cap, ?_⟩
        · intro g
          have := hI.jobs g
          simp only [Pipe.weight, hb, Wr.weight] at this ⊢
          omega
        · rintro (h | h) <;> cases h
        · intro e h; cases h; exact ⟨_, rfl, rfl⟩
        · intro x h; cases h; rfl
        · refine Iff.trans hI.failOk ?_
          rw [hb]
          exact ⟨fun _ => ⟨b, .inr rfl⟩, fun _ => ⟨b, .inl rfl⟩⟩
      · rename_i hb
        cases he
        refine ⟨?_, hI.fedLe, fun _ => h4, fun _ _ _ => by simp, fun _ _ => h5, ?_, ?_, ?_, hI.cap, ?_⟩
        · intro g
          have := hI.jobs g
          simp only [Pipe.weight, hb, Wr.weight] at this ⊢
          omega
        · exact fun _ => ⟨(hI.finOk (.inl hb)).1, by simp, by simp⟩
        · intro e h; cases h; exact ⟨_, rfl, rfl⟩
        · intro x h; cases h; rfl
        · refine Iff.trans hI.failOk ?_
          rw [hb]
          constructor
          · rintro ⟨b, h | h⟩ <;> cases h
          · rintro ⟨b, h | h⟩ <;> cases h
      · cases he
    · cases he

/-- If writing the header or an allocator fails, `writeState` returns at once. -/
theorem init_failed {c : PipeCfg} (h : (List.range c.pre).any c.fails = true) (act : PipeAct) : (Pipe.init c).exec c act = none := by
  have hm : (Pipe.init c).main = .ret true := by simp only [Pipe.init, h]; rfl
  cases act with
  | feed w => simp only [Pipe.exec]; rw [if_neg (by rw [hm]; simp)]
  | closeFeed => simp only [Pipe.exec]; rw [if_neg (by rw [hm]; simp)]
  | push w => simp only [Pipe.exec]; split <;> rfl
  | leave w => simp only [Pipe.exec]; rw [if_neg (by rw [hm]; simp)]
  | closeQueue => simp only [Pipe.exec]; rw [if_neg (by rw [hm]; simp)]
  | take => rfl
  | write => rfl
  | finish => simp only [Pipe.exec]; rw [if_neg (by rw [hm]; simp)]
  | join => simp only [Pipe.exec]; rw [if_neg (by rw [hm]; simp)]

theorem PipeRun.inv {c : PipeCfg} {s : Pipe} (h : PipeRun c s) : PipeInv c s ∨ (s = Pipe.init c ∧ (List.range c.pre).any c.fails = true) := by
  induction h with
  | init =>
    cases hp : (List.range c.pre).any c.fails with
    | false => exact .inl (init_inv hp)
    | true => exact .inr ⟨rfl, rfl⟩
  | step _ he ih =>
    rcases ih with ih | ⟨rfl, hp⟩
    · exact .inl (exec_pipeInv ih he)
    · rw [init_failed hp] at he; cases he

/-! ## Steps -/

def Wk.rank : Wk → Nat
  | .recv => 1
  | .hold _ => 6
  | .done => 0

def Wr.rank : Wr → Nat
  | .recv => 2
  | .head _ => 5
  | .data _ => 4
  | .fail _ => 1
  | .fin => 1
  | .exited _ => 0

def Main.rank : Main → Nat
  | .feed => 3
  | .wait => 2
  | .join => 1
  | .ret _ => 0

/-- Bound on the number of steps to come. -/
def Pipe.rank (c : PipeCfg) (s : Pipe) : Nat :=
  7 * (c.blocks - s.fed) + s.main.rank + ((List.range c.cpus).map fun w => (s.workers w).rank).sum + 4 * s.queue.length + s.writer.rank

theorem exec_rank {c : PipeCfg} {s s' : Pipe} {act : PipeAct} (he : s.exec c act = some s') : s'.rank c < s.rank c := by
  cases act with
  | feed w =>
    simp only [Pipe.exec] at he
    split at he
    · rename_i h
      obtain ⟨h1, h2, h3, h4⟩ := h
      cases he
      have hs := sum_upd_weight Wk.rank s.workers w (.hold s.fed) c.cpus h3
      rw [h4] at hs
      simp only [Wk.rank] at hs
      simp only [Pipe.rank, Wk.rank]
      omega
    · cases he
  | closeFeed =>
    simp only [Pipe.exec] at he
    split at he
    · rename_i h
      cases he
      simp only [Pipe.rank, h.1, Main.rank]
      omega
    · cases he
  | push w =>
    simp only [Pipe.exec] at he
    split at he
    · rename_i h
      split at he
      · rename_i b hb
        cases he
        have hs := sum_upd_weight Wk.rank s.workers w .recv c.cpus h.1
        rw [hb] at hs
        simp only [Wk.rank] at hs
        simp only [Pipe.rank, Wk.rank, List.length_append, List.length_cons, List.length_nil]
        omega
      · cases he
    · cases he
  | leave w =>
    simp only [Pipe.exec] at he
    split at he
    · rename_i h
      cases he
      have hs := sum_upd_weight Wk.rank s.workers w .done c.cpus h.1
      rw [h.2.1] at hs
      simp only [Wk.rank] at hs
      simp only [Pipe.rank, Wk.rank]
      omega
    · cases he
  | closeQueue =>
    simp only [Pipe.exec] at he
    split at he
    · rename_i h
      cases he
      simp only [Pipe.rank, h.1, Main.rank]
      omega
    · cases he
  | take =>
    simp only [Pipe.exec] at he
    split at he
    · rename_i b q h1 h2
      cases he
      simp only [Pipe.rank, h1, h2, Wr.rank, List.length_cons]
      omega
    · cases he
  | write =>
    simp only [Pipe.exec] at he
    split at he
    · rename_i b hb
      cases he
      by_cases hf : c.fails s.calls = true
      · simp only [Pipe.rank, hb, if_pos hf, Wr.rank]; omega
      · simp only [Pipe.rank, hb, if_neg hf, Wr.rank]; omega
    · rename_i b hb
      split at he <;> cases he
      · simp only [Pipe.rank, hb, Wr.rank]; omega
      · simp only [Pipe.rank, hb, Wr.rank]; omega
    · cases he
  | finish =>
    simp only [Pipe.exec] at he
    split at he
    · rename_i h
      cases he
      simp only [Pipe.rank, h.1, Wr.rank]
      omega
    · cases he
  | join =>
    simp only [Pipe.exec] at he
    split at he
    · rename_i h
      split at he
      · rename_i b hb
        cases he
        simp only [Pipe.rank, h, hb, Wr.rank, Main.rank]; omega
      · rename_i hb
        cases he
        simp only [Pipe.rank, h, hb, Wr.rank, Main.rank]; omega
      · cases he
    · cases he

end Radix
