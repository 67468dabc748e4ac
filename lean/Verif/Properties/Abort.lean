import Verif.Properties.Map
import Verif.Sys.LockInv
/-!
# Properties C07, C08: Abort
-/
set_option autoImplicit false
namespace Radix

/-- Allocator `a` holds the lock word of node `n`: it has a prepared operation, or one that has published its change and not unlocked
yet, on this node, its parent (or the child merged with it), or on a node sharing its lock word. -/
def Holds (s : Sys) (a n : Nat) : Prop := ∃ m ∈ (s.holding a).list, sameLock m n

/-- Allocator `a` holds the lock of the root leaf. -/
def HoldsRoot (s : Sys) (a : Nat) : Prop := (s.proc a).unl = .root

/-- The effect of releasing the locks of `a`, and no other, in state `s`. -/
structure LocksReleased (s : Sys) (a : Nat) (st' : St) : Prop where
  /-- a lock word is changed only if it was held by `a`; then it becomes free, with a new generation, and nobody else held it -/
  own : ∀ n, Holds s a n → s.st.gen n % 2 = 1 ∧ st'.gen n = s.st.gen n + 1 ∧ ∀ b, b ≠ a → ¬ Holds s b n
  other : ∀ n, ¬ Holds s a n → st'.gen n = s.st.gen n
  /-- what is still locked is held by others -/
  rest : ∀ n, st'.gen n % 2 = 1 → ∃ b, b ≠ a ∧ Holds s b n
  root : (HoldsRoot s a ∧ s.st.rootLock = 1 ∧ st'.rootLock = 0) ∨ (¬ HoldsRoot s a ∧ st'.rootLock = s.st.rootLock)

theorem Freed.released {s : Sys} (hT : Tidy s) {a : Nat} {st' : St} (h : Freed s a st') : LocksReleased s a st' := by
  have hown : ∀ n, Holds s a n → st'.gen n = s.st.gen n + 1 := by
    intro n hn
    rw [h]
    exact bump_gen_same (st := s.st) hn
  have hother : ∀ n, ¬ Holds s a n → st'.gen n = s.st.gen n := by
    intro n hn
    rw [h]
    exact bump_gen_other (st := s.st) hn
  have hodd : ∀ n, Holds s a n → s.st.gen n % 2 = 1 := by
    rintro n ⟨m, h1, h2⟩
    rw [← gen_congr h2]
    exact hT.locks.odd a m h1
  refine ⟨?_, hother, ?_, ?_⟩
  · intro n hn
    refine ⟨hodd n hn, hown n hn, ?_⟩
    rintro b hb ⟨m', g1, g2⟩
    obtain ⟨m, h1, h2⟩ := hn
    exact hT.locks.excl a b (Ne.symm hb) m h1 m' g1 ⟨h2.1.trans g2.1.symm, h2.2.trans g2.2.symm⟩
  · intro n hn
    by_cases ha : Holds s a n
    · rw [hown n ha] at hn
      have := hodd n ha
      omega
    · rw [hother n ha] at hn
      obtain ⟨b, m, h1, h2⟩ := hT.locks.held n hn
      refine ⟨b, ?_, m, h1, h2⟩
      rintro rfl
      exact ha ⟨m, h1, h2⟩
  · have hroot : st'.rootLock = s.st.rootLock - (s.holding a).rootN := by rw [h]
    by_cases hr : (s.proc a).unl = .root
    · left
      have hh : s.holding a = .root := norm_root.2 hr
      rcases hT.locks.root with ⟨_, h2⟩ | ⟨h1, _⟩
      · exact absurd hh (h2 a)
      · refine ⟨hr, h1, ?_⟩
        rw [hroot, hh, h1]; rfl
    · right
      refine ⟨hr, ?_⟩
      rw [hroot]
      have hne : s.holding a ≠ .root := fun e => hr (norm_root.1 e)
      cases hu : s.holding a <;> first | exact absurd hu hne | exact Int.sub_zero _

theorem Freed.content {s : Sys} {a : Nat} {st' : St} (h : Freed s a st') (fetch : Word → Key) (k : Key) :
    content fetch st' k = content fetch s.st k := by
  have e : search st' k = search s.st k := search_congr (by rw [h]) (by rw [h]) (by rw [h]; rfl) k
  unfold Radix.content
  rw [e]

/-- C07: aborting a prepared update does not panic, leaves memory and root, hence every stored key, as they were, and releases the locks
taken by `PrepareUpdate` and no others.  Any number of other operations may be under way, in any execution in which no aborted delete has
released locks it does not hold (C08). -/
theorem C07_abort_update_partial {env : Env} {s : Sys} {σ : Spec} (h : Run env TidyAbort s σ) {a : Nat} {found : Bool} {op : UpdOp}
    (hp : s.proc a = .upd (.held found op)) :
    ∃ st', abortU s.st a op = .ok st' ∧ st'.mem = s.st.mem ∧ st'.root = s.st.root ∧
      (∀ k, content env.fetch st' k = content env.fetch s.st k) ∧ LocksReleased s a st' := by
  obtain ⟨st', h1, h2⟩ := h.tidy.abortU hp
  exact ⟨st', h1, by rw [h2], by rw [h2], h2.content env.fetch, h2.released h.tidy⟩

/-- C07: if no other update or delete holds locks, all locks are free after `Abort`. -/
theorem C07_abort_update_frees_all_locks_partial {env : Env} {s : Sys} {σ : Spec} (h : Run env TidyAbort s σ) {a : Nat} {found : Bool}
    {op : UpdOp} (hp : s.proc a = .upd (.held found op)) (hno : ∀ b, b ≠ a → ¬ HoldsRoot s b ∧ ∀ n, ¬ Holds s b n) :
    ∃ st', abortU s.st a op = .ok st' ∧ (∀ n, st'.gen n % 2 = 0) ∧ st'.rootLock = 0 := by
  obtain ⟨st', h1, _, _, _, h5⟩ := C07_abort_update_partial h hp
  refine ⟨st', h1, fun n => ?_, ?_⟩
  · have : ¬ st'.gen n % 2 = 1 := by
      intro hn
      obtain ⟨b, hb, h6⟩ := h5.rest n hn
      exact (hno b hb).2 n h6
    omega
  · rcases h5.root with ⟨_, _, h6⟩ | ⟨h6, h7⟩
    · exact h6
    · rw [h7]
      rcases h.tidy.locks.root with ⟨h8, _⟩ | ⟨_, b, h8, _⟩
      · exact h8
      · by_cases e : b = a
        · subst e; exact absurd (norm_root.1 h8) h6
        · exact absurd (norm_root.1 h8) (hno b e).1

/-- The keys "aaa", "aab", "ab", "baa", "bab", "bb". -/
def deepKeys : List Key := [[97, 97, 97], [97, 97, 98], [97, 98], [98, 97, 97], [98, 97, 98], [98, 98]]

theorem deepKeys_good : goodKeys deepKeys = true := by decide +kernel

/-- Insert these keys. -/
def deepActs : List Act :=
  [.block] ++ putActs 0 [97, 97, 97] 0 2 ++ putActs 0 [97, 97, 98] 1 2 ++ putActs 0 [97, 98] 2 6 ++ putActs 0 [98, 97, 97] 3 6 ++
    putActs 0 [98, 97, 98] 4 6 ++ putActs 0 [98, 98] 5 10

/-- There are executions with a prepared update, while another allocator holds locks too: the updates of "aaa" and "baa". -/
example : ∃ s σ, Run (Env.ofList deepKeys deepKeys_good) Calm s σ ∧ (∃ found op, s.proc 0 = .upd (.held found op)) ∧
    (∃ found op, s.proc 1 = .upd (.held found op)) := by
  obtain ⟨s, σ, h1, h2⟩ := Run.ofCheck (h := deepKeys_good) (G := Calm) calm_sound (n := 2)
    (acts := deepActs ++ [.begin 0 (.update [97, 97, 97]), .arm 0] ++ List.replicate 14 (.run 0) ++
      [.begin 1 (.update [98, 97, 97]), .arm 1] ++ List.replicate 14 (.run 1))
    (check := fun s _ => (match s.proc 0 with | .upd (.held _ _) => true | _ => false) &&
      (match s.proc 1 with | .upd (.held _ _) => true | _ => false)) (by decide +kernel)
  simp only [Bool.and_eq_true] at h2
  obtain ⟨h3, h4⟩ := h2
  refine ⟨s, σ, h1, ?_, ?_⟩
  · split at h3
    · exact ⟨_, _, by assumption⟩
    · cases h3
  · split at h4
    · exact ⟨_, _, by assumption⟩
    · cases h4

/-- The full statement of C08 (as C07, for deletes): it does not hold, see `C08_does_not_hold`. -/
def C08_statement : Prop :=
  ∀ (env : Env) (s : Sys) (σ : Spec), Run env Serial s σ → ∀ (a : Nat) (cur : DelCur), s.proc a = .del (.held cur) →
    ∃ st', abortD s.st a cur.op = .ok st' ∧ st'.mem = s.st.mem ∧ st'.root = s.st.root ∧
      (∀ k, content env.fetch st' k = content env.fetch s.st k) ∧ LocksReleased s a st'

/-- C08 with arbitrary races, as long as no such abort went wrong before; a child with address 0 can only be the result of a race. -/
theorem C08_abort_delete_any_partial {env : Env} {s : Sys} {σ : Spec} (h : Run env TidyAbort s σ) {a : Nat} {cur : DelCur}
    (hp : s.proc a = .del (.held cur)) (hk : cur.op.kind = .replaceNodeWithNode → cur.op.parent ≠ 0 ∧ cur.op.child ≠ 0) :
    ∃ st', abortD s.st a cur.op = .ok st' ∧ st'.mem = s.st.mem ∧ st'.root = s.st.root ∧
      (∀ k, content env.fetch st' k = content env.fetch s.st k) ∧ LocksReleased s a st' := by
  obtain ⟨st', h1, h2⟩ := h.tidy.abortD_ok hp hk
  exact ⟨st', h1, by rw [h2], by rw [h2], h2.content env.fetch, h2.released h.tidy⟩

/-- C08, except for aborting a merge of a node and its child (`replaceNodeWithNode`) at the root: aborting a prepared delete does not
panic, leaves memory and root as they were, and releases the locks taken by `PrepareDelete` and no others. -/
theorem C08_abort_delete_partial {env : Env} {s : Sys} {σ : Spec} (h : Run env Calm s σ) {a : Nat} {cur : DelCur}
    (hp : s.proc a = .del (.held cur)) (hk : cur.op.kind = .replaceNodeWithNode → cur.op.parent ≠ 0) :
    ∃ st', abortD s.st a cur.op = .ok st' ∧ st'.mem = s.st.mem ∧ st'.root = s.st.root ∧
      (∀ k, content env.fetch st' k = content env.fetch s.st k) ∧ LocksReleased s a st' := by
  obtain ⟨t, seen, hI⟩ := h.inv
  refine C08_abort_delete_any_partial h.calm_tidy hp fun hkind => ⟨hk hkind, ?_⟩
  exact ((Calm.tidyAbort hI (act := .abort a) (by simp only [Calm, hp]; intro h1 h2; exact absurd h2 (hk h1))).1 a cur rfl hp hkind).1

/-- There are executions with a prepared delete of the remaining kinds: "bob", whose node keeps one leaf. -/
example : ∃ s σ, Run demoEnv Calm s σ ∧ ∃ cur, s.proc 1 = .del (.held cur) ∧ cur.op.kind = .replaceNodeWithLeaf ∧
    (cur.op.kind = .replaceNodeWithNode → cur.op.parent ≠ 0) := by
  obtain ⟨s, σ, h1, h2⟩ := Run.ofCheck (h := demoKeys_good) (G := Calm) calm_sound (n := 2)
    (acts := demoActs.take 33 ++ [.begin 1 (.delete [98, 111, 98]), .arm 1] ++ List.replicate 11 (.run 1))
    (check := fun s _ => match s.proc 1 with
      | .del (.held cur) => decide (cur.op.kind = .replaceNodeWithLeaf)
      | _ => false) (by decide +kernel)
  split at h2
  · have h3 := of_decide_eq_true h2
    exact ⟨s, σ, h1, _, by assumption, h3, by rw [h3]; intro h; cases h⟩
  · cases h2

/-- The keys "aa", "ab", "b". -/
def abortKeys : List Key := [[97, 97], [97, 98], [98]]

theorem abortKeys_good : goodKeys abortKeys = true := by decide +kernel

/-- Insert the three keys; then `PrepareDelete("b")`, with allocator 1. -/
def abortActs : List Act :=
  [.block] ++ putActs 0 [97, 97] 0 2 ++ putActs 0 [97, 98] 1 2 ++ putActs 0 [98] 2 6 ++
    [.begin 1 (.delete [98]), .arm 1] ++ List.replicate 9 (.run 1)

/-- C08 does not hold: with the keys "aa", "ab", "b" stored and nothing else going on, `PrepareDelete("b")` followed by `Abort`
panics ("unlock of unlocked node") because delete.go:344 passes the nodes to `unlockNodes3` in the wrong order. -/
theorem C08_does_not_hold : ¬ C08_statement := by
  intro hall
  obtain ⟨s, σ, h1, h2⟩ := Run.ofCheck (h := abortKeys_good) (G := Serial) serial_sound (n := 2) (acts := abortActs)
    (check := fun s _ => match s.proc 1 with
      | .del (.held cur) => match abortD s.st 1 cur.op with
        | .error .unlock => true
        | _ => false
      | _ => false) (by decide +kernel)
  split at h2
  · rename_i cur hp
    obtain ⟨st', h3, _⟩ := hall _ s σ h1 1 cur hp
    rw [h3] at h2
    cases h2
  · cases h2

end Radix
