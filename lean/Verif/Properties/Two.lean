import Verif.Sys.FineTwo
import Verif.Properties.Fine
import Verif.Properties.Race
/-!
# C47: two updates at a time

The race of C09 and C45 takes three updates.  Here: with at most two updates under way, or one delete, and any number of lookups, no race of the
code shows.  Nothing else is assumed about the order of the steps; every access to shared memory is a step of its own.
-/
set_option autoImplicit false
namespace Radix

section
variable {env : Env} {f : FSys} {s : Sys} {σ : Spec}

/-- C47: the restrictions of `Calm`, assumed by other theorems, hold. -/
theorem C47_two_updates_are_calm (h : Run env TwoUpdates s σ) : Run env Calm s σ := h.twoUpdates.1

/-- C47: every execution with fine steps and at most two updates, or one delete, at a time has a counterpart with coarse steps. -/
theorem C47_simulated (h : FRun env FTwoUpdates f σ) : ∃ s, Run env TwoUpdates s σ ∧ s.proc = f.sys.proc ∧
    f.sys.st = { s.st with locks := f.sys.st.locks, rootLock := f.sys.st.rootLock } := by
  obtain ⟨s, t, seen, hF⟩ := h.two
  exact ⟨s, hF.run, hF.proc.symm, hF.st⟩

/-- C47: at every moment the tree contains what the finished updates and deletes have put there. -/
theorem C47_contents (h : FRun env FTwoUpdates f σ) {k : Key} (hk : k ≠ []) : content env.fetch f.sys.st k = σ.map k := by
  obtain ⟨s, t, seen, hF⟩ := h.two
  exact hF.weaken.contents hk

/-- C47: the result of a lookup. -/
theorem C47_lookup_answers (h : FRun env FTwoUpdates f σ) {a : Nat} {key k : Key} {res : Option Word} (hc : σ.call a = .lookup key)
    (hp : f.sys.proc a = .rd (.done k res)) : LookupCorrect env σ a key res := by
  obtain ⟨s, t, seen, hF⟩ := h.two
  exact lookup_correct hF.weaken.run hc (by rw [← hF.proc]; exact hp)

/-- C47: the result of `PrepareUpdate`. -/
theorem C47_update_answers (h : FRun env FTwoUpdates f σ) {a : Nat} {key : Key} {found : Bool} {op : UpdOp}
    (hc : σ.call a = .update key) (hp : f.sys.proc a = .upd (.held found op)) :
    (found = false → σ.map key = none) ∧
    (found = true → (∃ M ∈ σ.window a, ∃ k', M k' = some op.value ∧ env.fetch op.value = k') ∧ ∀ v, σ.map key = some v → op.value = v) := by
  obtain ⟨s, t, seen, hF⟩ := h.two
  exact C04_prepare_update_classifies_concurrent_partial hF.weaken.run hc (by rw [← hF.proc]; exact hp)

/-- C47: the result of `PrepareDelete`. -/
theorem C47_delete_answers (h : FRun env FTwoUpdates f σ) {a : Nat} {key : Key} (hc : σ.call a = .delete key) :
    (∀ k, f.sys.proc a = .del (.miss k) → ∃ M ∈ σ.window a, M key = none) ∧
    (∀ cur, f.sys.proc a = .del (.held cur) → ∃ M ∈ σ.window a, ∃ k', M k' = some cur.op.value ∧ env.fetch cur.op.value = k' ∧
      ((∀ M ∈ σ.window a, M key ≠ none) → k' = key)) := by
  obtain ⟨s, t, seen, hF⟩ := h.two
  rw [hF.proc]
  exact C09_delete_answers_partial hF.weaken.run hc

/-- C47: the effects.  Only `commit`, the store or compare-and-swap that publishes a change, changes the contents of the tree; if it succeeds the
change is the one of the operation, and otherwise there is none.  A delete that succeeds finds its key stored. -/
theorem C47_effects {f' : FSys} {act : FAct} {ev : Ev} (h : FRun env FTwoUpdates f σ) (hall : env.Allowed f.sys act.act) (hG : FTwoUpdates f act)
    (he : fexec env.fetch f act = some (.ok (f', ev))) {k : Key} (hk : k ≠ []) :
    match act with
    | .commit a =>
      (∃ op value cm b tl, f.sys.proc a = .updB op value cm ∧ f'.sys.proc a = .upd (.tail b tl) ∧
        content env.fetch f'.sys.st k = if b = true ∧ k = op.key then some (trunc55 value) else content env.fetch f.sys.st k) ∨
      (∃ cur cm b tl, f.sys.proc a = .delB cur cm ∧ f'.sys.proc a = .del (.tail b tl) ∧
        content env.fetch f'.sys.st k = (if b = true ∧ k = cur.key then none else content env.fetch f.sys.st k) ∧
        (b = true → content env.fetch f.sys.st cur.key ≠ none))
    | _ => content env.fetch f'.sys.st k = content env.fetch f.sys.st k := by
  obtain ⟨s, t, seen, hF⟩ := h.two
  obtain ⟨s', t', seen', hF'⟩ := (FRun.step h hall hG he).two
  have := hF.weaken.effects hF'.weaken (by rintro a rfl; exact hF.twoCalm hG) he hk
  cases act <;> exact this

/-- C47: a step panics only if no memory block is left, or `Finalize` recycles a node of exactly 258 slots after its change has taken effect. -/
theorem C47_panics (h : FRun env FTwoUpdates f σ) {act : FAct} {e : Panic} (hall : env.Allowed f.sys act.act)
    (hG : FTwoUpdates f act) (he : fexec env.fetch f act = some (.error e)) :
    ((act = .block ∨ ∃ a value, act = .build a value) ∧ e = .noBlocks) ∨
    (∃ a, act = .tail a ∧ e = .index ∧ ∃ b tl n, (f.sys.proc a = .upd (.tail b tl) ∨ f.sys.proc a = .del (.tail b tl)) ∧ tl.free = some (n, 258)) := by
  obtain ⟨s, t, seen, hF⟩ := h.two
  exact hF.weaken.panics hall (.inl (hF.twoCalm hG)) (fun _ => hF.twoCalm hG) he

/-- C47: two operations never hold a common lock word; a lock word is odd if and only if an operation holds it. -/
theorem C47_locks_are_exclusive (h : FRun env FTwoUpdates f σ) (n : Nat) :
    (∀ a b, a ≠ b → FHolds f a n → ¬ FHolds f b n) ∧ (f.sys.st.gen n % 2 = 1 ↔ ∃ a, FHolds f a n) := by
  obtain ⟨s, t, seen, hF⟩ := h.two
  exact hF.weaken.exclusive n

/-- C47: with two updates or deletes under way in any mixture, it is enough to assume the part of `Calm` that is about publishing a delete and
aborting one, and that nodes to be merged have different lock words. -/
theorem C47_two_writers_partial (h : Run env TwoWriters s σ) : Run env Calm s σ ∧ ∀ k, k ≠ [] → content env.fetch s.st k = σ.map k := by
  obtain ⟨⟨t, seen, hI, _⟩, hr⟩ := h.twoWriters.1.ainv
  exact ⟨hr, fun k hk => hI.contents hk⟩

end

/-! ## Executions -/

/-- At most `n` updates or deletes are under way, decided for allocators in use. -/
def busyB (s : Sys) (n : Nat) : Bool := decide (((List.range s.st.nalloc).filter fun b => (s.proc b).writer).length ≤ n)

def noDelB (s : Sys) : Bool := (List.range s.st.nalloc).all fun b => !(s.proc b).deleting

/-- At most `n` updates, besides the one that begins, or one delete. -/
def updatesB (n : Nat) (f : FSys) : FAct → Bool
  | .begin _ (.lookup _) => decide (0 < f.sys.st.nblocks)
  | .begin _ .walk => decide (0 < f.sys.st.nblocks)
  | .begin _ (.update _) => busyB f.sys n && noDelB f.sys
  | .begin _ (.delete _) => busyB f.sys 0
  | .quit a => quitB f.sys a
  | _ => true

theorem busy_mem {s : Sys} (hoff : ∀ b, s.st.nalloc ≤ b → s.proc b = .idle) {x : Nat} (hx : (s.proc x).writer = true) :
    x ∈ (List.range s.st.nalloc).filter fun b => (s.proc b).writer := by
  rw [List.mem_filter, List.mem_range]
  refine ⟨Decidable.byContradiction fun h => ?_, hx⟩
  rw [hoff x (by omega)] at hx
  cases hx

theorem noDelB_sound {s : Sys} (hoff : ∀ b, s.st.nalloc ≤ b → s.proc b = .idle) (h : noDelB s = true) (x : Nat) : (s.proc x).deleting = false := by
  by_cases hb : x < s.st.nalloc
  · simpa using List.all_eq_true.1 h x (List.mem_range.2 hb)
  · rw [hoff x (by omega)]; rfl

theorem busyB_zero {s : Sys} (hoff : ∀ b, s.st.nalloc ≤ b → s.proc b = .idle) (h : busyB s 0 = true) (x : Nat) : (s.proc x).writer = false := by
  cases hx : (s.proc x).writer with
  | false => rfl
  | true =>
    have := busy_mem hoff hx
    have h0 := of_decide_eq_true h
    rw [List.length_eq_zero_iff.1 (Nat.le_zero.1 h0)] at this
    cases this

theorem busyB_one {s : Sys} (hoff : ∀ b, s.st.nalloc ≤ b → s.proc b = .idle) (h : busyB s 1 = true) : s.OneBusy := by
  have h0 := of_decide_eq_true h
  have key := @busy_mem s hoff
  generalize (List.range s.st.nalloc).filter (fun b => (s.proc b).writer) = l at h0 key
  refine ⟨l.headD 0, fun x hne => ?_⟩
  cases hx : (s.proc x).writer with
  | false => rfl
  | true =>
    have := key hx
    match l, h0 with
    | [], _ => cases this
    | [y], _ => exact absurd (List.mem_singleton.1 this) hne

theorem twoUpdates_sound {env : Env} (f : FSys) (σ : Spec) (act : FAct) (h : FRun env FTwoUpdates f σ) (hb : updatesB 1 f act = true) :
    FTwoUpdates f act := by
  obtain ⟨s, t, seen, hF⟩ := h.two
  have hoff : ∀ b, f.sys.st.nalloc ≤ b → f.sys.proc b = .idle := by
    have := hF.inv.mem.off
    rw [hF.sys]
    exact this
  unfold FTwoUpdates
  cases act with
  | begin a c =>
    cases c with
    | lookup key => exact (of_decide_eq_true hb : 0 < f.sys.st.nblocks)
    | walk => exact (of_decide_eq_true hb : 0 < f.sys.st.nblocks)
    | update k =>
      simp only [updatesB, Bool.and_eq_true] at hb
      exact ⟨busyB_one hoff hb.1, noDelB_sound hoff hb.2⟩
    | delete k => exact busyB_zero hoff hb
  | quit a => exact quitB_sound hb
  | _ => trivial

/-- Two inserts are under way, of "ac" by allocator 1 and of "aac" by allocator 0: the second fails to get its second lock, gives back the first and
starts again. -/
example : ∃ f σ, FRun raceEnv FTwoUpdates f σ ∧ (∃ x todo, f.fine 0 = .back (x :: todo)) ∧ ∃ op, f.sys.proc 1 = .upd (.held false op) := by
  obtain ⟨f, σ, h1, h2⟩ := FRun.ofCheck (h := raceKeys_good) (G := FTwoUpdates) twoUpdates_sound (n := 2) (acts := fclash)
    (check := fun f _ => (match f.fine 0 with | .back (_ :: _) => true | _ => false) &&
      match f.sys.proc 1 with | .upd (.held false _) => true | _ => false) (by decide +kernel)
  simp only [Bool.and_eq_true] at h2
  obtain ⟨h3, h4⟩ := h2
  split at h3
  · rename_i e3
    split at h4
    · rename_i e4; exact ⟨f, σ, h1, ⟨_, _, e3⟩, _, e4⟩
    · cases h4
  · cases h3

/-- Both inserts are finished, and a lookup by allocator 2 that began in between has found the new key; then a delete begins. -/
example : ∃ f σ, FRun raceEnv FTwoUpdates f σ ∧ σ.map [97, 99] = some 5 ∧ σ.map [97, 97, 99] = some 6 ∧
    σ.call 2 = .lookup [97, 97, 99] ∧ (∃ k, f.sys.proc 2 = .rd (.done k (some 6))) ∧ (f.sys.proc 0).deleting = true := by
  obtain ⟨f, σ, h1, h2⟩ := FRun.ofCheck (h := raceKeys_good) (G := FTwoUpdates) twoUpdates_sound (n := 3)
    (acts := fclash ++ [.step 0, .build 1 5, .commit 1] ++ List.replicate 5 (.step 0) ++ [.unlock 1, .unlock 1, .tail 1] ++ List.replicate 23 (.step 0) ++
      [.begin 2 (.lookup [97, 97, 99]), .arm 2, .step 2, .build 0 6, .commit 0] ++ List.replicate 8 (.step 2) ++ [.unlock 0, .unlock 0, .tail 0] ++
      [.begin 0 (.delete [97, 98]), .arm 0, .step 0])
    (check := fun f σ => decide (σ.map [97, 99] = some 5) && decide (σ.map [97, 97, 99] = some 6) && decide (σ.call 2 = .lookup [97, 97, 99]) &&
      (match f.sys.proc 2 with | .rd (.done _ (some 6)) => true | _ => false) && (f.sys.proc 0).deleting) (by decide +kernel)
  simp only [Bool.and_eq_true, decide_eq_true_eq] at h2
  obtain ⟨⟨⟨⟨h3, h4⟩, h5⟩, h6⟩, h7⟩ := h2
  split at h6
  · rename_i k hp
    exact ⟨f, σ, h1, h3, h4, h5, ⟨k, hp⟩, h7⟩
  · cases h6

/-! ## Two is the limit -/

/-- `FTwoUpdates` with three instead of two: an update begins only when at most two other updates and no delete are under way, a delete only
when no update or delete is. -/
def FThreeUpdates (f : FSys) : FAct → Prop
  | .begin _ (.update _) => (∃ b c, ∀ x, x < f.sys.st.nalloc → (f.sys.proc x).writer = true → x = b ∨ x = c) ∧
      ∀ x, x < f.sys.st.nalloc → (f.sys.proc x).deleting = false
  | .begin _ (.delete _) => ∀ x, x < f.sys.st.nalloc → (f.sys.proc x).writer = false
  | act => TwoUpdates f.sys act.act

theorem threeUpdates_sound {env : Env} (f : FSys) (σ : Spec) (act : FAct) (_ : FRun env FThreeUpdates f σ) (hb : updatesB 2 f act = true) :
    FThreeUpdates f act := by
  have mem : ∀ {x}, x < f.sys.st.nalloc → (f.sys.proc x).writer = true →
      x ∈ (List.range f.sys.st.nalloc).filter fun b => (f.sys.proc b).writer :=
    fun h1 h2 => by rw [List.mem_filter, List.mem_range]; exact ⟨h1, h2⟩
  cases act with
  | begin a c =>
    cases c with
    | lookup key => exact (of_decide_eq_true hb : 0 < f.sys.st.nblocks)
    | walk => exact (of_decide_eq_true hb : 0 < f.sys.st.nblocks)
    | update k =>
      simp only [updatesB, Bool.and_eq_true] at hb
      refine ⟨?_, fun x hx => by simpa using List.all_eq_true.1 hb.2 x (List.mem_range.2 hx)⟩
      have h0 := of_decide_eq_true hb.1
      generalize (List.range f.sys.st.nalloc).filter (fun b => (f.sys.proc b).writer) = l at h0 mem
      match l, h0 with
      | [], _ => exact ⟨0, 0, fun x h hx => by cases mem h hx⟩
      | [y], _ => exact ⟨y, y, fun x h hx => .inl (List.mem_singleton.1 (mem h hx))⟩
      | [y, z], _ => exact ⟨y, z, fun x h hx => by simpa using mem h hx⟩
    | delete k =>
      intro x h
      cases hx : (f.sys.proc x).writer with
      | false => rfl
      | true =>
        have := mem h hx
        rw [List.length_eq_zero_iff.1 (Nat.le_zero.1 (of_decide_eq_true hb))] at this
        cases this
  | quit a => exact quitB_sound hb
  | _ => trivial

/-- C47 with three instead of two updates does not hold: one of three concurrent inserts is lost, although its `Finalize` returned true. -/
theorem C47_three_updates_lose_one : ∃ (env : Env) (f : FSys) (σ : Spec) (k : Key), FRun env FThreeUpdates f σ ∧ (∀ b, b < f.sys.st.nalloc → f.sys.proc b = .idle) ∧
    k ≠ [] ∧ σ.map k = some 6 ∧ content env.fetch f.sys.st k = none := by
  obtain ⟨f, σ, h1, h2⟩ := FRun.ofCheck (h := raceKeys_good) (G := FThreeUpdates) threeUpdates_sound (n := 4) (acts := fraceActs)
    (check := fun f σ => decide (σ.map [97, 97, 99] = some 6) && decide (search f.sys.st [97, 97, 99] = .ok none) &&
      (List.range f.sys.st.nalloc).all fun b => (f.sys.proc b).isIdle) (by decide +kernel)
  simp only [Bool.and_eq_true, decide_eq_true_eq] at h2
  refine ⟨raceEnv, f, σ, [97, 97, 99], h1, ?_, by decide, h2.1.1, ?_⟩
  · exact fun b hb => Proc.idle_of (List.all_eq_true.1 h2.2 b (List.mem_range.2 hb))
  · unfold content; rw [h2.1.2]

end Radix
