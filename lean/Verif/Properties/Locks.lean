import Verif.LockSteps
import Verif.Properties.Abort
/-!
# Properties C26, C40: the node locks

The theorems about `LRun` hold for any number of threads that lock and unlock any nodes, with every compare-and-swap and addition a step of
its own.
-/
set_option autoImplicit false
namespace Radix

/-- C26: a thread whose `lockNodes2` or `lockNodes3` has returned true holds the lock words of all its nodes. -/
theorem C26_all_nodes_locked {s : LSys} (h : LRun s) {p : Nat} {req : LockReq} {got : List (Nat × Int)} (hp : s.proc p = .held req got) :
    ∀ n ∈ req.nodes, s.gen n % 2 = 1 := by
  intro n hn
  have hg := h.inv.good p
  rw [hp] at hg
  obtain ⟨x, h1, h2⟩ := (lockPlan_facts hg).2.2.1 n hn
  have := h.inv.val p x (by rw [hp]; exact h1)
  rw [lgen_congr s h2] at this
  omega

/-- C26: two threads never hold a common lock word. -/
theorem C26_locks_are_exclusive {s : LSys} (h : LRun s) {p q : Nat} (hpq : p ≠ q) {req req' : LockReq} {got got' : List (Nat × Int)}
    (hp : s.proc p = .held req got) (hq : s.proc q = .held req' got') : ∀ n ∈ req.nodes, ∀ m ∈ req'.nodes, ¬ sameLock n m := by
  intro n hn m hm hs
  have hg := h.inv.good p
  rw [hp] at hg
  have hg' := h.inv.good q
  rw [hq] at hg'
  obtain ⟨x, h1, h2⟩ := (lockPlan_facts hg).2.2.1 n hn
  obtain ⟨y, h3, h4⟩ := (lockPlan_facts hg').2.2.1 m hm
  exact h.inv.excl p q hpq x (by rw [hp]; exact h1) y (by rw [hq]; exact h3)
    (sameLock_trans (sameLock_trans h2 hs) (sameLock_comm.1 h4))

/-- C26: while a failed call gives back a word, the word still has the value this call wrote, and gets the value it had before; no other
word changes. -/
theorem C26_roll_back_restores {s : LSys} (h : LRun s) {p n : Nat} {g : Int} {todo : List (Nat × Int)} (hp : s.proc p = .back ((n, g) :: todo)) :
    s.gen n = g + 1 ∧ ∃ s', lexec s (.step p) = some s' ∧ s'.gen n = g ∧ ∀ m, ¬ sameLock n m → s'.gen m = s.gen m := by
  have hv := (h.inv.val p (n, g) (by rw [hp]; simp [LPh.own])).1
  refine ⟨hv, ⟨setWord s.word n (s.gen n - 1), upd s.proc p (.back todo)⟩, by simp only [lexec, hp], ?_, ?_⟩
  · rw [gen_setWord, if_pos (sameLock_refl _)]
    simp only at hv
    omega
  · intro m hm
    rw [gen_setWord, if_neg hm]
    rfl

/-- C26: nothing remains locked: a lock word is odd only while some thread is locking, holding, or releasing it. -/
theorem C26_no_lock_leaks {s : LSys} (h : LRun s) (hidle : ∀ p, s.proc p = .idle) (n : Nat) : s.gen n % 2 = 0 := by
  have : ¬ s.gen n % 2 = 1 := by
    intro hn
    obtain ⟨p, x, h1, _⟩ := h.inv.odd n hn
    rw [hidle p] at h1
    cases h1
  omega

/-- C26: without interruption, a failed call leaves all lock words as they were, and a successful one adds one to the lock words of its
nodes (once, if shared). -/
theorem C26_all_or_nothing (st : St) (child : Nat) (cg : Int) (node : Nat) (ng : Int) (parent : Nat) (pg : Int) :
    ((st.lockNodes2 node ng parent pg = (false, st)) ∨ ∃ st', st.lockNodes2 node ng parent pg = (true, st') ∧
      ∀ m, st'.gen m = st.gen m + if ∃ n ∈ (if parent = 0 then [node] else [node, parent]), sameLock n m then 1 else 0) ∧
    (node ≠ 0 → (st.lockNodes3 child cg node ng parent pg = (false, st)) ∨ ∃ st', st.lockNodes3 child cg node ng parent pg = (true, st') ∧
      ∀ m, st'.gen m = st.gen m + if ∃ n ∈ (if parent = 0 then [child, node] else [child, node, parent]), sameLock n m then 1 else 0) := by
  have key : ∀ L m, ({ st with locks := bumpLocks st.locks L } : St).gen m = st.gen m + if ∃ n ∈ L, sameLock n m then 1 else 0 := by
    intro L m
    by_cases h : ∃ n ∈ L, sameLock n m
    · rw [if_pos h]; exact bump_gen_same h
    · rw [if_neg h, Int.add_zero]; exact bump_gen_other h
  constructor
  · rcases lockNodes2_spec st node ng parent pg with ⟨_, _, _, _, h⟩ | ⟨_, h⟩
    · exact .inr ⟨_, h, key _⟩
    · exact .inl h
  · intro hn
    rcases lockNodes3_spec st child cg node ng parent pg (fun _ => hn) with ⟨_, _, _, _, _, _, h⟩ | ⟨_, h⟩
    · exact .inr ⟨_, h, key _⟩
    · exact .inl h

/-- C26: unlocking never panics. -/
theorem C26_unlock_never_panics {s : LSys} (h : LRun s) (p : Nat) : s.proc p ≠ .panicked := by
  intro hp
  have := h.inv.good p
  rw [hp] at this
  exact this

theorem LSteps.run {s s' : LSys} (h : LRun s) (hs : LSteps s s') : LRun s' := by
  induction hs with
  | refl => exact h
  | step _ he ih => exact .step ih he

/-- What one step does to a word. -/
theorem lexec_word {s s' : LSys} {act : LAct} (h : LSInv s) (he : lexec s act = some s') (n : Nat) :
    s'.gen n = s.gen n ∨ (s.gen n % 2 = 0 ∧ s'.gen n = s.gen n + 1) ∨
    (∃ p g todo, act = .step p ∧ s.proc p = .back (g :: todo) ∧ sameLock g.1 n ∧ s.gen n % 2 = 1 ∧ s'.gen n = s.gen n - 1) ∨
    (s.gen n % 2 = 1 ∧ s'.gen n = s.gen n + 1) := by
  cases act with
  | lock p req =>
    simp only [lexec] at he
    split at he
    · split at he <;> (cases he; exact .inl rfl)
    · cases he
  | unlock p =>
    simp only [lexec] at he
    split at he
    · cases he; exact .inl rfl
    · cases he
  | step p =>
    simp only [lexec] at he
    split at he
    · cases he; exact .inl rfl
    · rename_i req n' g todo got hp
      split at he
      · rename_i hgen
        cases he
        have hg := h.good p
        rw [hp] at hg
        have := (lockPlan_facts hg).2.1 (n', g) (by simp)
        rw [gen_setWord]
        split
        · rename_i hs
          rw [lgen_congr s hs] at hgen
          simp only at this
          exact .inr (.inl ⟨by omega, by omega⟩)
        · exact .inl rfl
      · cases he; exact .inl rfl
    · cases he; exact .inl rfl
    · rename_i n' g todo hp
      cases he
      have hv := h.val p (n', g) (by rw [hp]; simp [LPh.own])
      simp only at hv
      rw [gen_setWord]
      split
      · rename_i hs
        rw [← lgen_congr s hs]
        exact .inr (.inr (.inl ⟨p, _, _, rfl, hp, hs, by omega, rfl⟩))
      · exact .inl rfl
    · cases he; exact .inl rfl
    · rename_i n' todo got hp
      cases he
      have hg := h.good p
      rw [hp] at hg
      obtain ⟨x, hx, hxs⟩ := hg.2.1 n' (by simp)
      have hv := h.val p x (by rw [hp]; exact hx)
      rw [lgen_congr s hxs] at hv
      rw [gen_setWord]
      split
      · rename_i hs
        rw [← lgen_congr s hs]
        exact .inr (.inr (.inr ⟨by omega, rfl⟩))
      · exact .inl rfl
    · cases he

/-- C26: up to its lowest bit, the generation in a lock word never decreases. -/
theorem C26_generations_only_grow {s s' : LSys} (h : LRun s) (hs : LSteps s s') (n : Nat) : s.gen n / 2 ≤ s'.gen n / 2 := by
  induction hs with
  | refl => omega
  | @step s1 s2 act h1 he ih =>
    rcases lexec_word (h1.run h).inv he n with h2 | h2 | ⟨_, _, _, _, _, _, h3, h4⟩ | h2 <;> omega

/-- The thread has taken the word of `n` successfully, and not released it yet. -/
def LPh.Has (n : Nat) : LPh → Prop
  | .held _ got => ∃ x ∈ got, sameLock x.1 n
  | .free _ got => ∃ x ∈ got, sameLock x.1 n
  | _ => False

theorem lexec_has {s s' : LSys} {act : LAct} (h : LSInv s) (he : lexec s act = some s') {p n : Nat} (hp : (s.proc p).Has n) :
    ((s'.proc p).Has n ∧ s.gen n / 2 ≤ s'.gen n / 2) ∨ s.gen n / 2 < s'.gen n / 2 := by
  have hown : ∃ x ∈ (s.proc p).own, sameLock x.1 n := by
    cases hph : s.proc p with
    | held req got => rw [hph] at hp; exact hp
    | free todo got => rw [hph] at hp; exact hp
    | _ => rw [hph] at hp; exact absurd hp id
  obtain ⟨x, hx, hxs⟩ := hown
  have hodd : s.gen n % 2 = 1 := by
    have := h.val p x hx
    rw [lgen_congr s hxs] at this
    omega
  have hnot : ∀ q g todo, s.proc q = .back (g :: todo) → ¬ sameLock g.1 n := by
    intro q g todo hq hs
    by_cases e : p = q
    · subst e; rw [hq] at hp; exact hp
    · exact h.excl p q e x hx g (by rw [hq]; simp [LPh.own]) (sameLock_trans hxs (sameLock_comm.1 hs))
  rcases lexec_word h he n with h2 | h2 | ⟨q, g, todo, _, h3, h4, _⟩ | h2
  · -- the word is unchanged
    left
    refine ⟨?_, by omega⟩
    cases act with
    | lock q req =>
      simp only [lexec] at he
      split at he
      · rename_i hq
        have hqp : p ≠ q := by rintro rfl; rw [hq] at hp; exact hp
        split at he
        · cases he; exact hp
        · cases he; simpa [upd, hqp] using hp
      · cases he
    | unlock q =>
      simp only [lexec] at he
      split at he
      · rename_i req got hq
        cases he
        by_cases e : p = q
        · subst e
          rw [hq] at hp
          simp only [upd, if_true]
          exact hp
        · simpa [upd, e] using hp
      · cases he
    | step q =>
      have oth : ∀ {ph}, s'.proc = upd s.proc q ph → p ≠ q → (s'.proc p).Has n := by
        intro ph e hne
        rw [e]; simpa [upd, hne] using hp
      simp only [lexec] at he
      split at he
      · rename_i hq
        cases he; exact oth rfl (by rintro rfl; rw [hq] at hp; exact hp)
      · rename_i hq
        split at he <;> (cases he; exact oth rfl (by rintro rfl; rw [hq] at hp; exact hp))
      · rename_i hq
        cases he; exact oth rfl (by rintro rfl; rw [hq] at hp; exact hp)
      · rename_i hq
        cases he; exact oth rfl (by rintro rfl; rw [hq] at hp; exact hp)
      · rename_i got hq
        cases he
        refine oth rfl ?_
        rintro rfl
        have hg := h.good p
        rw [hq] at hp hg
        obtain ⟨x, h1, _⟩ := hp
        obtain ⟨m, h2, _⟩ := hg.2.2 x h1
        cases h2
      · rename_i m todo got hq
        cases he
        by_cases e : p = q
        · subst e
          have hsm : ¬ sameLock m n := by
            intro hs
            rw [gen_setWord, if_pos hs, lgen_congr s hs] at h2
            omega
          have hg := h.good p
          rw [hq] at hp hg
          obtain ⟨y, h1, h3⟩ := hp
          obtain ⟨z, hz, hzs⟩ := hg.2.1 m (by simp)
          have hv := h.val p z (by rw [hq]; exact hz)
          rw [lgen_congr s hzs] at hv
          simp only [upd, if_true]
          rw [if_neg (by omega)]
          refine ⟨y, ?_, h3⟩
          rw [List.mem_filter, lockDiffer_iff]
          exact ⟨h1, fun h4 => hsm (sameLock_trans (sameLock_comm.1 h4) h3)⟩
        · exact oth rfl e
      · cases he
  · omega
  · exact absurd h4 (hnot q g todo h3)
  · right; omega

/-- C26: after a thread has held the lock of a node and released it, its generation is different from everything read before; so locking
the node with an earlier generation fails. -/
theorem C26_unlock_changes_generation {s0 s1 s2 : LSys} (h : LRun s0) (h01 : LSteps s0 s1) {p : Nat} {req : LockReq} {got : List (Nat × Int)}
    (hp : s1.proc p = .held req got) (h12 : LSteps s1 s2) (hidle : s2.proc p = .idle) : ∀ n ∈ req.nodes, s0.gen n < s2.gen n := by
  intro n hn
  have h1 := h01.run h
  have hg := h1.inv.good p
  rw [hp] at hg
  have hh : (s1.proc p).Has n := by
    rw [hp]
    exact (lockPlan_facts hg).2.2.1 n hn
  have hodd := C26_all_nodes_locked h1 hp n hn
  have hmono := C26_generations_only_grow h h01 n
  have key : ∀ {s3}, LSteps s1 s3 → ((s3.proc p).Has n ∧ s1.gen n / 2 ≤ s3.gen n / 2) ∨ s1.gen n / 2 < s3.gen n / 2 := by
    intro s3 h13
    induction h13 with
    | refl => exact .inl ⟨hh, by omega⟩
    | @step s4 s5 act h14 he ih =>
      have hi := (h14.run h1).inv
      rcases ih with ⟨i1, i2⟩ | i1
      · rcases lexec_has hi he i1 with ⟨j1, j2⟩ | j1
        · exact .inl ⟨j1, by omega⟩
        · exact .inr (by omega)
      · have := C26_generations_only_grow (h14.run h1) (.step (.refl s4) he) n
        exact .inr (by omega)
  rcases key h12 with ⟨k1, _⟩ | k1
  · rw [hidle] at k1; exact absurd k1 id
  · omega

/-- C26, for the operations on the tree: two operations (prepared, or not yet unlocked) never hold a common lock word; a lock word is odd if
and only if an operation holds it.  This needs no restriction but that no aborted delete has released locks it does not hold (C08). -/
theorem C26_operations_are_exclusive {env : Env} {s : Sys} {σ : Spec} (h : Run env TidyAbort s σ) (n : Nat) :
    (∀ a b, a ≠ b → Holds s a n → ¬ Holds s b n) ∧ (s.st.gen n % 2 = 1 ↔ ∃ a, Holds s a n) := by
  refine ⟨?_, ?_, ?_⟩
  · rintro a b hab ⟨m, h1, h2⟩ ⟨m', h3, h4⟩
    exact h.tidy.locks.excl a b hab m h1 m' h3 (sameLock_trans h2 (sameLock_comm.1 h4))
  · intro hn
    obtain ⟨a, m, h1, h2⟩ := h.tidy.locks.held n hn
    exact ⟨a, m, h1, h2⟩
  · rintro ⟨a, m, h1, h2⟩
    rw [← gen_congr h2]
    exact h.tidy.locks.odd a m h1

/-! ### An execution of the lock protocol

Thread 0 locks nodes 1 and 65 (two words); thread 1 tries 2 and 65, has taken 2, fails on 65, and rolls back. -/

/-- The steps. -/
def lockActs : List LAct :=
  [.lock 0 (.two 1 0 65 0), .lock 1 (.two 2 0 65 0), .step 1, .step 0, .step 0, .step 0, .step 1]

/-- Execute the steps. -/
def lexecs : LSys → List LAct → Option LSys
  | s, [] => some s
  | s, act :: acts => (lexec s act).bind fun s => lexecs s acts

theorem lexecs_run {s s' : LSys} {acts : List LAct} (h : LRun s) (he : lexecs s acts = some s') : LRun s' := by
  induction acts generalizing s with
  | nil => cases he; exact h
  | cons act acts ih =>
    simp only [lexecs] at he
    cases hx : lexec s act with
    | none => rw [hx] at he; cases he
    | some s1 => rw [hx] at he; exact ih (.step h hx) he

/-- The hypotheses of the theorems are met: a thread holds two locks while another one rolls back. -/
example : ∃ s, LRun s ∧ s.proc 0 = .held (.two 1 0 65 0) [(1, 0), (65, 0)] ∧ s.proc 1 = .back [(2, 0)] := by
  refine ⟨_, lexecs_run (acts := lockActs) (.init (fun _ _ => 0) fun _ _ => rfl) rfl, rfl, rfl⟩

/-! ## C40: stale observations -/

/-- The full statement of C40: `lockNodes3` succeeds only if no generation has changed (comment at locks.go:40). -/
def C40_statement : Prop :=
  ∀ (st : St) (child : Nat) (cg : Int) (node : Nat) (ng : Int) (parent : Nat) (pg : Int), node ≠ 0 →
    (st.lockNodes3 child cg node ng parent pg).1 = true →
    st.gen child = cg ∧ st.gen node = ng ∧ (parent ≠ 0 → st.gen parent = pg)

/-- C40 does not hold: if node and child share a lock word, the generation read for the node is not compared. -/
theorem C40_does_not_hold : ¬ C40_statement := by
  intro h
  have h1 := h (St.new 1) 1 0 (1 + locksPerBlock) 2 3 0 (by decide) (by decide +kernel)
  have h2 : (St.new 1).gen (1 + locksPerBlock) = 0 := rfl
  rw [h2] at h1
  cases h1.2.1

/-- C40, if the three nodes have different lock words; for two nodes, likewise. -/
theorem C40_stale_generations_rejected_partial (st : St) (child : Nat) (cg : Int) (node : Nat) (ng : Int) (parent : Nat) (pg : Int) :
    ((parent ≠ 0 → ¬ sameLock parent node) → (st.lockNodes2 node ng parent pg).1 = true →
      st.gen node = ng ∧ (parent ≠ 0 → st.gen parent = pg)) ∧
    (node ≠ 0 → ¬ sameLock node child → (parent ≠ 0 → ¬ sameLock parent child ∧ ¬ sameLock parent node) →
      (st.lockNodes3 child cg node ng parent pg).1 = true →
      st.gen child = cg ∧ st.gen node = ng ∧ (parent ≠ 0 → st.gen parent = pg)) := by
  constructor
  · intro h1 h2
    rcases lockNodes2_spec st node ng parent pg with ⟨h3, _, h4, _⟩ | ⟨_, h⟩
    · exact ⟨h3, fun h0 => h4 h0 (h1 h0)⟩
    · rw [h] at h2; cases h2
  · intro h0 h1 h2 h3
    rcases lockNodes3_spec st child cg node ng parent pg (fun _ => h0) with ⟨h4, _, _, h5, h6, _⟩ | ⟨_, h⟩
    · exact ⟨h4, h5 h1, fun hp => h6 hp (h2 hp).1 (h2 hp).2⟩
    · rw [h] at h3; cases h3

/-- The hypotheses are met by three nodes of a new tree. -/
example : ((St.new 1).lockNodes3 3 0 2 0 1 0).1 = true ∧ ¬ sameLock 2 3 ∧ ¬ sameLock 1 3 ∧ ¬ sameLock 1 2 := by decide +kernel

end Radix
