import Verif.Properties.Abort
/-!
# C07 does not hold in full

What delete.go:344 does wrong (C08) need not panic: if the lock word with number 0 of the first block is held by somebody else, `Abort` releases it.
4096 slots share this lock word with one another; here the node at address 4096 is locked by an update.
-/
set_option autoImplicit false
namespace Radix

/-- The full statement of C07: whatever happened before, `Abort` of a prepared update does not panic, leaves the contents as they were and releases
the locks taken, and no others. -/
def C07_statement : Prop :=
  ∀ (env : Env) (s : Sys) (σ : Spec), Run env (fun _ _ => True) s σ → ∀ (a : Nat) (found : Bool) (op : UpdOp), s.proc a = .upd (.held found op) →
    ∃ st', abortU s.st a op = .ok st' ∧ st'.mem = s.st.mem ∧ st'.root = s.st.root ∧
      (∀ k, content env.fetch st' k = content env.fetch s.st k) ∧ LocksReleased s a st'

/-- Keys that begin with "b" and have `n` bytes "c" in common: their node takes up much memory. -/
def spaceKey (n : Nat) (c y : UInt8) : Key := 98 :: c :: (List.replicate n 99 ++ [y])

/-- The keys "a", "baaa", "bab", "baab", and eight pairs of long ones. -/
def spaceKeys : List Key :=
  [[97], [98, 97, 97, 97], [98, 97, 98], [98, 97, 97, 98]] ++
  ([100, 101, 102, 103, 104, 105, 106].flatMap fun c => [spaceKey 4000 c 0, spaceKey 4000 c 1]) ++ [spaceKey 4160 107 0, spaceKey 4160 107 1]

theorem spaceKeys_good : goodKeys spaceKeys = true := by decide +kernel

/-- The keys are inserted, "baab" at the end: the node for "baaa" and "baab" is at address 4096.  Allocator 0 prepares an update of "baab", allocator 1
a delete of "a", which is to merge the root with its other child, and aborts it. -/
def spaceActs : List Act :=
  [.block] ++ putActs 0 [97] 0 2 ++ putActs 0 [98, 97, 97, 97] 1 2 ++ putActs 0 [98, 97, 98] 2 6 ++
  ((List.range 16).flatMap fun i => putActs 0 (spaceKeys.getD (i + 4) []) (UInt64.ofNat (i + 4)) 10) ++ putActs 0 [98, 97, 97, 98] 3 14 ++
  [.begin 0 (.update [98, 97, 97, 98]), .arm 0] ++ List.replicate 18 (.run 0) ++
  [.begin 1 (.delete [97]), .arm 1] ++ List.replicate 9 (.run 1) ++ [.abort 1]

/-- Then `Abort` of the update panics, because its lock has been released. -/
theorem wrong_abort : ∃ s σ, Run (Env.ofList spaceKeys spaceKeys_good) (fun _ _ => True) s σ ∧ ∃ op, s.proc 0 = .upd (.held true op) ∧
    op.node = 4096 ∧ s.st.gen 4096 % 2 = 0 ∧ abortU s.st 0 op = .error .unlock ∧ 0 < s.st.nblocks ∧ 4096 ∈ (s.holding 0).list := by
  obtain ⟨s, σ, h1, h2⟩ := Run.ofCheck (h := spaceKeys_good) (G := fun _ _ => True) (g := fun _ _ => true) (fun _ _ _ _ _ => trivial) (n := 2)
    (acts := spaceActs)
    (check := fun s _ => match s.proc 0 with
      | .upd (.held true op) => decide (op.node = 4096) && decide (s.st.gen 4096 % 2 = 0 ∧ 0 < s.st.nblocks ∧ 4096 ∈ (s.holding 0).list) && match abortU s.st 0 op with
        | .error .unlock => true
        | _ => false
      | _ => false) (by decide +kernel)
  split at h2
  · rename_i op hp
    simp only [Bool.and_eq_true, decide_eq_true_eq] at h2
    refine ⟨s, σ, h1, op, hp, h2.1.1, h2.1.2.1, ?_, h2.1.2.2⟩
    have h3 := h2.2
    split at h3
    · assumption
    · cases h3
  · cases h2

/-- C07 does not hold: an update that holds a lock is aborted and panics ("unlock of unlocked node"), because `Abort` of a delete has released that
lock (delete.go:344). -/
theorem C07_does_not_hold : ¬ C07_statement := by
  intro hall
  obtain ⟨s, σ, h1, op, h2, _, _, h3, _⟩ := wrong_abort
  obtain ⟨st', h4, _⟩ := hall _ s σ h1 0 true op h2
  rw [h3] at h4
  cases h4

end Radix
