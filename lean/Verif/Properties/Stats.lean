import Verif.Model.Debug
import Verif.Properties.Walk
import Verif.Properties.Map
/-!
# Property C54: `Stats` and the command `blocks`

`HasBlock st b`: block `b` exists, that is, nodes in it can be read.
-/
set_option autoImplicit false
namespace Radix
variable {env : Env} {s : Sys} {σ : Spec}

/-- Block `b` exists. -/
def HasBlock (st : St) (b : Nat) : Prop := st.nodeData (b * blockSlots) ≠ .error .nilBlock

theorem hasBlock_iff (st : St) (b : Nat) : HasBlock st b ↔ b < st.nblocks := by
  unfold HasBlock St.nodeData
  rw [Nat.mul_div_cancel _ (by decide)]
  split <;> rename_i h <;> simp [h]

/-- C54 in full: when nothing is under way, the number of objects reported is the number of stored keys, and exactly the blocks with smaller
numbers than `blocks_allocated` exist. -/
def C54_statement : Prop := ∀ (env : Env) (s : Sys) (σ : Spec), Run env Calm s σ → (∀ a, s.proc a = .idle) →
    (∃ l : List Key, l.Nodup ∧ (∀ k, k ∈ l ↔ σ.map k ≠ none) ∧ s.st.stats.objects = l.length) ∧ ∀ b, b < s.st.stats.blocks ↔ HasBlock s.st b

/-- The number of objects reported differs from the number of stored keys by what the allocators have counted since they have flushed. -/
theorem C54_objects_partial (h : Run env Calm s σ) (hidle : ∀ a, s.proc a = .idle) :
    ∃ l : List Key, l.Nodup ∧ (∀ k, k ∈ l ↔ σ.map k ≠ none) ∧
      s.st.stats.objects + ((List.range s.st.nalloc).map fun a => (s.st.allocs a).itemCounter).sum = l.length := by
  obtain ⟨l, h1, h2, h3⟩ := C19_len_is_number_of_keys_partial h hidle
  exact ⟨l, h1, h2, by rw [← h3, St.len_eq]; rfl⟩

/-- So it is the number of stored keys if every allocator has flushed its counter after its last operation. -/
theorem C54_flushed_partial (h : Run env Calm s σ) (hidle : ∀ a, s.proc a = .idle)
    (hf : ∀ a, a < s.st.nalloc → (s.st.allocs a).itemCounter = 0) :
    ∃ l : List Key, l.Nodup ∧ (∀ k, k ∈ l ↔ σ.map k ≠ none) ∧ s.st.stats.objects = l.length ∧ (s.st.stats.perKey = true ↔ l ≠ []) := by
  obtain ⟨l, h1, h2, h3⟩ := C54_objects_partial h hidle
  have e : ((List.range s.st.nalloc).map fun a => (s.st.allocs a).itemCounter).sum = 0 := by
    apply sum_zero_int
    intro a ha
    exact hf a (List.mem_range.1 ha)
  rw [e, Int.add_zero] at h3
  refine ⟨l, h1, h2, h3, ?_⟩
  have h4 : s.st.live = l.length := h3
  simp only [St.stats, h4, decide_eq_true_eq, gt_iff_lt]
  rw [Int.natCast_pos, List.length_pos_iff]

/-- `blocks_allocated` is the number of blocks which exist, from the moment at which the first block of the goroutine exists. -/
theorem C54_blocks_partial (st : St) (hb : st.baReady = true ∨ st.baSent = true ∧ 0 < st.baNext) (b : Nat) : b < st.stats.blocks ↔ HasBlock st b := by
  rw [hasBlock_iff]
  simp only [St.stats, St.nextFreeBlock, St.nblocks]
  rcases hb with h | ⟨h, h1⟩
  · simp [h]
  · cases hr : st.baReady
    · simp only [hr, h, Bool.not_true, Bool.or_false, Bool.false_eq_true, if_false]; omega
    · simp [hr]

/-- Before, one block too many is reported. -/
theorem C54_blocks_before (st : St) (h1 : st.baReady = false) (h2 : st.baSent = false) (b : Nat) : b < st.stats.blocks ↔ HasBlock st b ∨ b = st.nblocks := by
  rw [hasBlock_iff]
  simp only [St.stats, St.nextFreeBlock, St.nblocks, h1, h2]
  simp
  omega

/-- The table of the command `blocks` has one row for each block reported; the last one is "allocated". -/
theorem C54_table (st : St) : (st.adminBlocks.map (·.1)) = List.range st.stats.blocks ∧
    ∀ i x, (i, x) ∈ st.adminBlocks → (x = true ↔ i + 1 = st.stats.blocks) := by
  constructor
  · simp [St.adminBlocks, St.stats, Function.comp_def]
  · intro i x h
    obtain ⟨j, hj, e⟩ := List.mem_map.1 h
    cases e
    simp [St.stats]

/-- Both halves fail: after one insert 0 objects are reported, and in a new tree one block although there is none. -/
theorem C54_does_not_hold : ¬ C54_statement ∧
    (∃ s σ, Run demoEnv Calm s σ ∧ (∀ a, s.proc a = .idle) ∧ σ.map [97, 112, 112, 108, 101] = some 0 ∧ s.st.stats.objects = 0 ∧ s.st.stats.perKey = false) ∧
    ∃ s σ, Run demoEnv Calm s σ ∧ (∀ a, s.proc a = .idle) ∧ s.st.stats.blocks = 1 ∧ ∀ b, ¬ HasBlock s.st b := by
  have h2 : ∀ b, ¬ HasBlock (Sys.new 2).st b := by
    intro b
    rw [hasBlock_iff]
    exact Nat.not_lt_zero b
  refine ⟨fun h => ?_, ?_, Sys.new 2, .init, .init 2, fun _ => rfl, by decide, h2⟩
  · exact h2 0 (((h demoEnv (Sys.new 2) .init (.init 2) (fun _ => rfl)).2 0).1 (by decide))
  · obtain ⟨s, σ, h1, h2⟩ := Run.ofCheck (h := demoKeys_good) (G := Calm) calm_sound (n := 2) (acts := demoActs.take 7)
      (check := fun s σ => decide (s.st.nalloc = 2) && (List.range s.st.nalloc).all (fun b => (s.proc b).isIdle) &&
        decide (σ.map [97, 112, 112, 108, 101] = some 0) && decide (s.st.stats.objects = 0) && decide (s.st.stats.perKey = false)) (by decide +kernel)
    simp only [Bool.and_eq_true, decide_eq_true_eq] at h2
    obtain ⟨t, seen, hI⟩ := h1.inv
    exact ⟨s, σ, h1, all_idle hI.mem.off h2.1.1.1.2, h2.1.1.2, h2.1.2, h2.2⟩

/-- The hypotheses are met: after some updates and deletes by two allocators, which then flush, 3 objects and two blocks are reported. -/
example : ∃ s σ, Run demoEnv Calm s σ ∧ (∀ a, s.proc a = .idle) ∧ (∀ a, a < s.st.nalloc → (s.st.allocs a).itemCounter = 0) ∧
    (s.st.baReady = true ∨ s.st.baSent = true ∧ 0 < s.st.baNext) ∧ s.st.stats.objects = 3 ∧ s.st.stats.blocks = 2 := by
  obtain ⟨s, σ, h1, h2⟩ := Run.ofCheck (h := demoKeys_good) (G := Calm) calm_sound (n := 2) (acts := demoActs ++ [.flush 0, .flush 1])
    (check := fun s _ => decide (s.st.nalloc = 2) && (List.range s.st.nalloc).all (fun b => (s.proc b).isIdle) &&
      (List.range s.st.nalloc).all (fun a => decide ((s.st.allocs a).itemCounter = 0)) &&
      decide (s.st.baReady = true ∨ s.st.baSent = true ∧ 0 < s.st.baNext) && decide (s.st.stats.objects = 3) && decide (s.st.stats.blocks = 2)) (by decide +kernel)
  simp only [Bool.and_eq_true, decide_eq_true_eq] at h2
  obtain ⟨t, seen, hI⟩ := h1.inv
  refine ⟨s, σ, h1, all_idle hI.mem.off h2.1.1.1.1.2, fun a ha => ?_, h2.1.1.2, h2.1.2, h2.2⟩
  exact of_decide_eq_true (List.all_eq_true.1 h2.1.1.1.2 a (List.mem_range.2 ha))

/-- ... and before the goroutine has made its first step. -/
example : (Sys.new 2).st.baReady = false ∧ (Sys.new 2).st.baSent = false := ⟨rfl, rfl⟩

end Radix
