import Verif.Model.Unused
import Verif.Properties.Exact
import Verif.Sys.EpochInv
/-!
# C68: `unused` and the rest of the block an allocator fills
-/
set_option autoImplicit false
namespace Radix
open T
variable {env : Env} {s : Sys} {σ : Spec}

/-! ## Specification -/

/-- The first slot of the rest of the block that allocator `a` fills: where its next node begins, if it fits. -/
def St.nextSlot (st : St) (a : Nat) : Nat := ((st.allocs a).offset + (st.allocs a).nextFree) / 8

/-- Slot `x` is in the block that allocator `a` fills, and not before its next node. -/
def AheadOf (st : St) (a x : Nat) : Prop := st.nextSlot a ≤ x ∧ x / blockSlots = (st.allocs a).block

/-- C68 in full: of an allocator that has a block, `unused` is the number of bytes of its block from the next node on, and these are in no node of
the tree and in no recycled memory. -/
def C68_statement : Prop := ∀ (env : Env) (s : Sys) (σ : Spec), Run env Calm s σ → ∀ a, a < s.st.nalloc → 0 < s.st.unused a →
  ∀ x, (AheadOf s.st a x ↔ s.st.nextSlot a ≤ x ∧ 8 * ((x : Int) - s.st.nextSlot a) < s.st.unused a) ∧
    (AheadOf s.st a x → ¬ InTree s.st x ∧ ¬ InRecycler s.st x)

theorem two_le_sum {α : Type} {f : α → Nat} {a b : α} {l : List α} (ha : a ∈ l) (hb : b ∈ l) (hne : a ≠ b) : f a + f b ≤ (l.map f).sum := by
  induction l with
  | nil => cases ha
  | cons c l ih =>
    rw [List.map_cons, List.sum_cons]
    rcases List.mem_cons.1 ha with rfl | ha' <;> rcases List.mem_cons.1 hb with rfl | hb'
    · exact absurd rfl hne
    · have := le_sum_of (f := f) hb'
      omega
    · have := le_sum_of (f := f) ha'
      omega
    · have := ih ha' hb'
      omega

section
variable {P : Key → Word → Prop} {st : St} {t : T} {N : Nat → Nat}

theorem CoreN.unused_bounds (hc : CoreN P st t N) {a : Nat} (ha : a < st.nalloc) :
    0 ≤ st.unused a ∧ st.unused a ≤ blockSize ∧ st.unused a % 8 = 0 := by
  have hok := hc.ok a ha
  have h1 := hok.mod8
  have h2 : (st.allocs a).nextFree ≤ blockSize := by
    rcases hok.bump with h | h
    · exact Nat.le_of_eq h.1
    · exact Nat.le_of_lt h.2.2
  unfold St.unused
  rw [blockSize_eq] at *
  omega

theorem CoreN.unused_room (hc : CoreN P st t N) {a : Nat} (ha : a < st.nalloc) (hu : 0 < st.unused a) (hb : (st.allocs a).block ≠ 0) (x : Nat) :
    AheadOf st a x ↔ st.nextSlot a ≤ x ∧ 8 * ((x : Int) - st.nextSlot a) < st.unused a := by
  have hok := hc.ok a ha
  have h1 := hok.mod8
  unfold St.unused at *
  rcases hok.bump with h | ⟨_, h2, h3⟩
  · exact absurd h.2.2 hb
  · rw [if_neg hb] at h2
    unfold AheadOf St.nextSlot
    rw [h2, blockSlots_eq]
    rw [blockSize_eq] at *
    omega

theorem CoreN.unused_room_0 (hc : CoreN P st t N) {a : Nat} (ha : a < st.nalloc) (hu : 0 < st.unused a) (hb : (st.allocs a).block = 0) (x : Nat) :
    AheadOf st a x ↔ st.nextSlot a ≤ x ∧ 8 * ((x : Int) - st.nextSlot a) + 8 < st.unused a := by
  have hok := hc.ok a ha
  have h1 := hok.mod8
  unfold St.unused at *
  rcases hok.bump with h | ⟨_, h2, h3⟩
  · rw [h.1] at hu
    omega
  · rw [if_pos hb] at h2
    unfold AheadOf St.nextSlot
    rw [h2, hb, blockSlots_eq]
    rw [blockSize_eq] at *
    omega

theorem CoreN.unused_free (hc : CoreN P st t N) {a : Nat} (ha : a < st.nalloc) {x : Nat} (h1 : st.nextSlot a ≤ x)
    (h2 : 8 * ((x : Int) - st.nextSlot a) + 8 < st.unused a) :
    ¬ InTree st x ∧ ¬ InRecycler st x ∧
      ∀ b, b < st.nalloc → b ≠ a → ¬ (st.nextSlot b ≤ x ∧ 8 * ((x : Int) - st.nextSlot b) + 8 < st.unused b) := by
  have bump : ∀ b, b < st.nalloc → st.nextSlot b ≤ x → 8 * ((x : Int) - st.nextSlot b) + 8 < st.unused b → bumpCover (st.allocs b) x = 1 := by
    intro b hb h1 h2
    have hm := (hc.ok b hb).mod8
    unfold bumpCover
    unfold St.unused at h2
    unfold St.nextSlot at h1 h2
    refine if_pos ⟨h1, ?_⟩
    rw [blockSlots_eq]
    rw [blockSize_eq] at h2
    omega
  have h3 := bump a ha h1 h2
  have hsep := hc.sep x
  rw [freeCover_split] at hsep
  have h4 := le_sum_of (f := fun a => bumpCover (st.allocs a) x) (List.mem_range.2 ha)
  refine ⟨fun hin => ?_, fun hin => ?_, fun b hb hne hx => ?_⟩
  · have := (inTree_iff hc).1 hin
    omega
  · have := inRecycler_iff.1 hin
    omega
  · have h5 := bump b hb hx.1 hx.2
    have h6 := two_le_sum (f := fun a => bumpCover (st.allocs a) x) (List.mem_range.2 hb) (List.mem_range.2 ha) hne
    omega

end

/-! ## Theorems -/

/-- `unused` is a multiple of 8, not negative, and not more than a block. -/
theorem C68_bounds_partial (h : Run env Calm s σ) {a : Nat} (ha : a < s.st.nalloc) :
    0 ≤ s.st.unused a ∧ s.st.unused a ≤ blockSize ∧ s.st.unused a % 8 = 0 := by
  obtain ⟨t, seen, hI⟩ := h.inv
  exact hI.mem.core.unused_bounds ha

/-- In a block other than block 0 it is the number of bytes from the next node to the end of the block. -/
theorem C68_room_partial (h : Run env Calm s σ) {a : Nat} (ha : a < s.st.nalloc) (hu : 0 < s.st.unused a) (hb : (s.st.allocs a).block ≠ 0) (x : Nat) :
    AheadOf s.st a x ↔ s.st.nextSlot a ≤ x ∧ 8 * ((x : Int) - s.st.nextSlot a) < s.st.unused a := by
  obtain ⟨t, seen, hI⟩ := h.inv
  exact hI.mem.core.unused_room ha hu hb x

/-- In block 0 it is 8 bytes more than that. -/
theorem C68_room_block_0 (h : Run env Calm s σ) {a : Nat} (ha : a < s.st.nalloc) (hu : 0 < s.st.unused a) (hb : (s.st.allocs a).block = 0) (x : Nat) :
    AheadOf s.st a x ↔ s.st.nextSlot a ≤ x ∧ 8 * ((x : Int) - s.st.nextSlot a) + 8 < s.st.unused a := by
  obtain ⟨t, seen, hI⟩ := h.inv
  exact hI.mem.core.unused_room_0 ha hu hb x

/-- The bytes counted, except the last 8, are in no node of the tree, in no recycled memory, and not counted by another allocator. -/
theorem C68_free_partial (h : Run env Calm s σ) {a : Nat} (ha : a < s.st.nalloc) {x : Nat} (h1 : s.st.nextSlot a ≤ x)
    (h2 : 8 * ((x : Int) - s.st.nextSlot a) + 8 < s.st.unused a) :
    ¬ InTree s.st x ∧ ¬ InRecycler s.st x ∧
      ∀ b, b < s.st.nalloc → b ≠ a → ¬ (s.st.nextSlot b ≤ x ∧ 8 * ((x : Int) - s.st.nextSlot b) + 8 < s.st.unused b) := by
  obtain ⟨t, seen, hI⟩ := h.inv
  exact hI.mem.core.unused_free ha h1 h2

/-- A node that is not made from recycled memory takes its bytes from those counted, if there are more of them than it needs; otherwise the
allocator goes on with a new block. -/
theorem C68_draw {st st' : St} {a slots n : Nat} (h : st.allocFresh a slots = .ok (n, st')) :
    (8 * (slots : Int) < st.unused a → n = st.nextSlot a ∧ st'.unused a = st.unused a - 8 * slots ∧ (st'.allocs a).block = (st.allocs a).block) ∧
    (st.unused a ≤ 8 * slots → st'.unused a = blockSize - 8 * slots ∧ (st'.allocs a).block = st.baNext) ∧
    ∀ b, b ≠ a → st'.unused b = st.unused b := by
  unfold St.allocFresh at h
  simp only at h
  unfold St.unused
  split at h
  · rename_i hge
    obtain ⟨st1, h1, h⟩ := bind_ok h
    have e : st1.baNext = st.baNext ∧ st1.allocs = st.allocs := by
      unfold St.blockStep at h1
      split at h1
      · cases h1; exact ⟨rfl, rfl⟩
      · split at h1
        · cases h1; exact ⟨rfl, rfl⟩
        · cases h1
    cases h
    refine ⟨fun hl => by omega, fun _ => ⟨?_, ?_⟩, fun b hb => ?_⟩
    · simp only [upd, if_pos]; omega
    · simp only [upd, if_pos]; exact e.1
    · simp only [upd, if_neg hb, e.2]
  · rename_i hlt
    cases h
    refine ⟨fun _ => ⟨rfl, ?_, ?_⟩, fun hl => by omega, fun b hb => ?_⟩
    · simp only [upd, if_pos]; omega
    · simp only [upd, if_pos]
    · simp only [upd, if_neg hb]

/-- The full statement fails in block 0, the block of the first node. -/
theorem C68_does_not_hold : ¬ C68_statement := by
  intro hall
  obtain ⟨s, σ, h1, h2⟩ := Run.ofCheck (h := demoKeys_good) (G := Calm) calm_sound (n := 2) (acts := demoActs)
    (check := fun s _ => (List.range s.st.nalloc).any fun a => decide (0 < s.st.unused a) && decide ((s.st.allocs a).block = 0)) (by decide +kernel)
  obtain ⟨a, ha, h2⟩ := List.any_eq_true.1 h2
  simp only [Bool.and_eq_true, decide_eq_true_eq] at h2
  rw [List.mem_range] at ha
  obtain ⟨u1, _, u3⟩ := C68_bounds_partial h1 ha
  have e := (hall _ s σ h1 a ha h2.1 (s.st.nextSlot a + (s.st.unused a).toNat / 8 - 1)).1
  rw [C68_room_block_0 h1 ha h2.1 h2.2] at e
  have := h2.1
  omega

/-- The hypotheses are met: two allocators fill two blocks, one of them block 0. -/
example : ∃ s σ a b, Run demoEnv Calm s σ ∧ a < s.st.nalloc ∧ b < s.st.nalloc ∧ 8 < s.st.unused a ∧ (s.st.allocs a).block = 0 ∧
    8 < s.st.unused b ∧ (s.st.allocs b).block ≠ 0 := by
  obtain ⟨s, σ, h1, h2⟩ := Run.ofCheck (h := demoKeys_good) (G := Calm) calm_sound (n := 2) (acts := demoActs)
    (check := fun s _ => (List.range s.st.nalloc).any (fun a => decide (8 < s.st.unused a) && decide ((s.st.allocs a).block = 0)) &&
      (List.range s.st.nalloc).any (fun a => decide (8 < s.st.unused a) && decide ((s.st.allocs a).block ≠ 0))) (by decide +kernel)
  simp only [Bool.and_eq_true, List.any_eq_true, decide_eq_true_eq, List.mem_range] at h2
  obtain ⟨⟨a, ha, h3⟩, b, hb, h4⟩ := h2
  exact ⟨s, σ, a, b, h1, ha, hb, h3.1, h3.2, h4.1, h4.2⟩

/-- ... and a node is allocated in each way. -/
example : ∃ n st', (St.new 1).allocFresh 0 4 = .ok (n, st') ∧ (St.new 1).unused 0 ≤ 8 * (4 : Nat) ∧
    ∃ n' st'', st'.allocFresh 0 5 = .ok (n', st'') ∧ 8 * ((5 : Nat) : Int) < st'.unused 0 :=
  ⟨_, _, rfl, by decide, _, _, rfl, by decide⟩

end Radix
