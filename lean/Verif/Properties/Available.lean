import Verif.Model.Available
import Verif.Properties.Pool
/-!
# Property C67: `slots.available`
-/
set_option autoImplicit false
namespace Radix
variable {n : Nat} {l : List Pool} {i c : Nat}

/-- Some goroutine has obtained allocator `i` and has not released it. -/
def Pool.InUse (s : Pool) (i : Nat) : Prop := ∃ t, i ∈ (s.th t).held

theorem PRun.busy_iff {s : Pool} (h : PRun n UsersOnly s) (i : Nat) : s.busy i = true ↔ s.InUse i := by
  obtain ⟨⟨taken, hI⟩, -⟩ := (h.mono fun _ _ => UsersOnly.disciplined).inv
  obtain ⟨h1, h2⟩ := h.users
  have h3 := PI.rest hI h1
  rw [h2] at h3
  have h4 := PI.busyIff hI i
  rw [(h3 : taken = [])] at h4
  simpa [Pool.InUse] using h4

theorem AvailRun.runs {G : Pool → PAct → Prop} (h : AvailRun n G l i c) : ∀ s ∈ l, PRun n G s := by
  induction h with
  | begin h => intro s hs; rw [List.mem_singleton.1 hs]; exact h
  | @step s s' l i c act _ h1 h2 ih =>
    intro x hx
    rcases List.mem_cons.1 hx with rfl | hx
    · exact .step (ih s (List.mem_cons_self ..)) h1 h2
    · exact ih x hx
  | load _ _ ih => exact ih

/-- The slots found zero. -/
theorem AvailRun.counted (h : AvailRun n UsersOnly l i c) : ∃ A : List Nat, A.length = c ∧ A.Nodup ∧ (∀ j ∈ A, j < i ∧ ∃ s ∈ l, s.busy j = false) ∧
    ∀ j, j < i → j ∉ A → ∃ s ∈ l, s.busy j = true := by
  induction h with
  | begin _ => exact ⟨[], rfl, List.nodup_nil, (fun j h => by cases h), fun j h => by omega⟩
  | @step s s' l i c act _ _ _ ih =>
    obtain ⟨A, h1, h2, h3, h4⟩ := ih
    refine ⟨A, h1, h2, fun j hj => ?_, fun j hj hn => ?_⟩
    · obtain ⟨h5, x, hx, h6⟩ := h3 j hj
      exact ⟨h5, x, List.mem_cons_of_mem _ hx, h6⟩
    · obtain ⟨x, hx, h6⟩ := h4 j hj hn
      exact ⟨x, List.mem_cons_of_mem _ hx, h6⟩
  | @load s l i c _ hi ih =>
    obtain ⟨A, h1, h2, h3, h4⟩ := ih
    by_cases hb : s.busy i = false
    · rw [if_pos hb]
      refine ⟨i :: A, by rw [List.length_cons, h1], List.nodup_cons.2 ⟨fun h => absurd (h3 i h).1 (Nat.lt_irrefl i), h2⟩, fun j hj => ?_, fun j hj hn => ?_⟩
      · rcases List.mem_cons.1 hj with rfl | hj
        · exact ⟨by omega, s, List.mem_cons_self .., hb⟩
        · exact ⟨by have := (h3 j hj).1; omega, (h3 j hj).2⟩
      · rw [List.mem_cons, not_or] at hn
        exact h4 j (by omega) hn.2
    · rw [if_neg hb]
      refine ⟨A, h1, h2, fun j hj => ⟨by have := (h3 j hj).1; omega, (h3 j hj).2⟩, fun j hj hn => ?_⟩
      by_cases e : j = i
      · subst e; exact ⟨s, List.mem_cons_self .., by simpa using hb⟩
      · exact h4 j (by omega) hn

theorem AvailRun.le (h : AvailRun n UsersOnly l i c) : i ≤ n ∧ ∀ s ∈ l, s.n = n := by
  have key : ∀ s ∈ l, s.n = n := fun s hs => (((h.runs s hs).mono fun _ _ => UsersOnly.disciplined).inv).2
  refine ⟨?_, key⟩
  induction h with
  | begin _ => omega
  | step h _ _ ih => exact ih fun s hs => (((h.runs s hs).mono fun _ _ => UsersOnly.disciplined).inv).2
  | load _ hi _ => have := key _ (List.mem_cons_self ..); omega

/-- C67: the result is at least the number of allocators that nobody used during the call, and at most the number of those that were not in use
all the time. -/
theorem C67_available (h : AvailReturns n UsersOnly l c) :
    (∀ F : List Nat, F.Nodup → (∀ i ∈ F, i < n ∧ ∀ s ∈ l, ¬ s.InUse i) → F.length ≤ c) ∧
    (∀ U : List Nat, U.Nodup → (∀ i ∈ U, i < n ∧ ∀ s ∈ l, s.InUse i) → c + U.length ≤ n) := by
  obtain ⟨i, hr, s, hs, hi⟩ := h
  have hsl : s ∈ l := List.mem_of_mem_head? hs
  have hin : i = n := by have := hr.le.2 s hsl; have := hr.le.1; omega
  subst hin
  obtain ⟨A, h1, h2, h3, h4⟩ := hr.counted
  constructor
  · intro F hF hall
    rw [← h1]
    refine List.Nodup.length_le_of_subset hF fun j hj => Decidable.byContradiction fun hn => ?_
    obtain ⟨x, hx, h5⟩ := h4 j (hall j hj).1 hn
    exact (hall j hj).2 x hx (((hr.runs x hx).busy_iff j).1 h5)
  · intro U hU hall
    have hd : (A ++ U).Nodup := by
      rw [List.nodup_append]
      refine ⟨h2, hU, ?_⟩
      rintro a ha _ hb rfl
      obtain ⟨_, x, hx, h5⟩ := h3 a ha
      rw [((hr.runs x hx).busy_iff a).2 ((hall a hb).2 x hx)] at h5
      cases h5
    have h5 := List.Nodup.length_le_of_subset (l₂ := List.range i) hd fun j hj => by
      rw [List.mem_range]
      rcases List.mem_append.1 hj with hj | hj
      · exact (h3 j hj).1
      · exact (hall j hj).1
    rw [List.length_append, h1, List.length_range] at h5
    exact h5

/-- C67: if no goroutine does anything during the call, the result is the number of allocators which are not in use. -/
theorem C67_available_alone {s : Pool} (h : AvailReturns n UsersOnly [s] c) {U : List Nat} (hU : U.Nodup) (hall : ∀ i, i ∈ U ↔ i < n ∧ s.InUse i) :
    c + U.length = n := by
  obtain ⟨h1, h2⟩ := C67_available h
  have h3 := h2 U hU fun i hi => ⟨((hall i).1 hi).1, fun x hx => by rw [List.mem_singleton.1 hx]; exact ((hall i).1 hi).2⟩
  have h4 := h1 ((List.range n).filter (· ∉ U)) (List.nodup_range.filter _) fun i hi => by
    rw [List.mem_filter, List.mem_range, decide_eq_true_eq] at hi
    exact ⟨hi.1, fun x hx hu => by rw [List.mem_singleton.1 hx] at hu; exact hi.2 ((hall i).2 ⟨hi.1, hu⟩)⟩
  have h5 := List.Nodup.length_le_of_subset (l₁ := List.range n) (l₂ := (List.range n).filter (· ∉ U) ++ U) List.nodup_range fun i hi => by
    by_cases hu : i ∈ U
    · exact List.mem_append.2 (.inr hu)
    · exact List.mem_append.2 (.inl (List.mem_filter.2 ⟨hi, by simpa using hu⟩))
  rw [List.length_range, List.length_append] at h5
  omega

/-- C67: in `n` loads the call returns, whatever the state. -/
theorem C67_returns {s : Pool} (h : PRun n UsersOnly s) : ∃ c, AvailReturns n UsersOnly [s] c := by
  have hn : s.n = n := ((h.mono fun _ _ => UsersOnly.disciplined).inv).2
  have key : ∀ i, i ≤ n → ∃ c, AvailRun n UsersOnly [s] i c := by
    intro i
    induction i with
    | zero => exact fun _ => ⟨0, .begin h⟩
    | succ i ih =>
      intro hi
      obtain ⟨c, hc⟩ := ih (by omega)
      exact ⟨_, .load hc (by omega)⟩
  obtain ⟨c, hc⟩ := key n (Nat.le_refl n)
  exact ⟨c, n, hc, s, rfl, by omega⟩

/-! ## Executions -/

/-- Goroutine 1 obtains allocator 0; goroutine 2 has seen that it is in use. -/
def availActs : List PAct := [.beginGet 1, .run 1, .run 1, .beginGet 2, .run 2]

theorem avail_setup (n : Nat) (h : ((Pool.new n).execs availActs).isSome) : PRun n UsersOnly ((Pool.new n).after availActs) :=
  PRun.execs .init (by
    intro a ha s
    simp only [availActs, List.mem_cons, List.not_mem_nil, or_false] at ha
    rcases ha with rfl | rfl | rfl | rfl | rfl <;> trivial) (Pool.execs_after h)

/-- With one of three allocators in use the result is 2. -/
example : ∃ s, AvailReturns 3 UsersOnly [s] 2 ∧ s.InUse 0 ∧ ¬ s.InUse 1 := by
  have h := avail_setup 3 (by decide)
  generalize hs : (Pool.new 3).after availActs = s at h
  have hb : s.n = 3 ∧ s.busy 0 = true ∧ s.busy 1 = false ∧ s.busy 2 = false := by subst hs; decide
  obtain ⟨h0, h1, h2, h3⟩ := hb
  have r := (((AvailRun.begin h).load (by omega)).load (by omega)).load (by omega)
  simp only [h1, h2, h3, Bool.true_eq_false, if_false, if_true] at r
  exact ⟨s, ⟨_, r, s, rfl, by omega⟩, (h.busy_iff 0).1 h1, fun hu => by rw [(h.busy_iff 1).2 hu] at h2; cases h2⟩

/-- The bounds of `C67_available` are apart for a reason: goroutine 1 releases allocator 0 when slot 0 has been loaded, and goroutine 2 obtains
allocator 1 before slot 1 is loaded.  The result is 0, though one allocator or two were available all the time. -/
theorem C67_available_is_not_a_snapshot : ∃ l, AvailReturns 2 UsersOnly l 0 ∧ ∀ s ∈ l, ∃ i, i < 2 ∧ ¬ s.InUse i := by
  have h := avail_setup 2 (by decide)
  let s0 := (Pool.new 2).after availActs
  let s1 := s0.after [.release 1 0]
  let s2 := s1.after [.run 2]
  let s3 := s2.after [.run 2]
  have e1 : s0.exec (.release 1 0) = some s1 := by
    have := Pool.execs_after (s := s0) (acts := [.release 1 0]) (by decide)
    simpa [Pool.execs] using this
  have e2 : s1.exec (.run 2) = some s2 := by
    have := Pool.execs_after (s := s1) (acts := [.run 2]) (by decide)
    simpa [Pool.execs] using this
  have e3 : s2.exec (.run 2) = some s3 := by
    have := Pool.execs_after (s := s2) (acts := [.run 2]) (by decide)
    simpa [Pool.execs] using this
  have n0 : s0.n = 2 := by decide
  have n3 : s3.n = 2 := by decide
  have b0 : s0.busy 0 = true := by decide
  have b3 : s3.busy 1 = true := by decide
  have r0 := (AvailRun.begin (G := UsersOnly) h).load (show 0 < s0.n by omega)
  rw [if_neg (by rw [show ((Pool.new 2).after availActs).busy 0 = true from b0]; simp)] at r0
  have r3 := ((r0.step (act := .release 1 0) trivial e1).step (act := .run 2) trivial e2).step (act := .run 2) trivial e3
  have r4 := r3.load (by omega)
  rw [if_neg (by rw [b3]; simp)] at r4
  have hr := r4.runs
  have free : ∀ s ∈ [s3, s2, s1, s0], s.busy 0 = false ∨ s.busy 1 = false := by
    intro s hs
    simp only [List.mem_cons, List.not_mem_nil, or_false] at hs
    rcases hs with rfl | rfl | rfl | rfl
    · exact .inl (by decide)
    · exact .inl (by decide)
    · exact .inl (by decide)
    · exact .inr (by decide)
  refine ⟨_, ⟨_, r4, s3, rfl, by omega⟩, fun s hs => ?_⟩
  rcases free s hs with hf | hf
  · exact ⟨0, by omega, fun hu => by rw [((hr s hs).busy_iff 0).2 hu] at hf; cases hf⟩
  · exact ⟨1, by omega, fun hu => by rw [((hr s hs).busy_iff 1).2 hu] at hf; cases hf⟩

end Radix
