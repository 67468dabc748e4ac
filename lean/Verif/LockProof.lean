import Verif.Model.Locks
/-!
# Effect of locking and unlocking a set of nodes
-/
namespace Radix

/-- `n` uses the lock word `(b, i)`. -/
def usesLock (n b i : Nat) : Prop := lockBlock n = b ∧ lockIdx n = i

instance (n b i : Nat) : Decidable (usesLock n b i) := inferInstanceAs (Decidable (_ ∧ _))

/-- Two nodes share a lock word. -/
def sameLock (n n' : Nat) : Prop := lockBlock n = lockBlock n' ∧ lockIdx n = lockIdx n'

instance (n n' : Nat) : Decidable (sameLock n n') := inferInstanceAs (Decidable (_ ∧ _))

theorem lockDiffer_iff (a b : Nat) : lockDiffer a b = true ↔ ¬ sameLock a b := by
  unfold lockDiffer sameLock
  simp only [Bool.or_eq_true, bne_iff_ne]
  omega

theorem lockDiffer_false (a b : Nat) : lockDiffer a b = false ↔ sameLock a b := by
  rw [← Bool.not_eq_true, lockDiffer_iff]; simp

/-- Add one to every lock word used by a node in the list. -/
def bumpLocks (locks : Nat → Nat → Int) (L : List Nat) : Nat → Nat → Int :=
  fun b i => if ∃ n ∈ L, usesLock n b i then locks b i + 1 else locks b i

theorem bumpLocks_congr {locks : Nat → Nat → Int} {L L' : List Nat}
    (h : ∀ b i, (∃ n ∈ L, usesLock n b i) ↔ (∃ n ∈ L', usesLock n b i)) : bumpLocks locks L = bumpLocks locks L' := by
  funext b i
  unfold bumpLocks
  simp only [h b i]

theorem setGen_locks (st : St) (n : Nat) (g : Int) (b i : Nat) :
    (st.setGen n g).locks b i = if usesLock n b i then g else st.locks b i := by
  simp only [St.setGen, usesLock, eq_comm]

theorem setGen_eq (st : St) (n : Nat) (g : Int) : st.setGen n g = { st with locks := (st.setGen n g).locks } := rfl

theorem gen_setGen (st : St) (n n' : Nat) (g : Int) :
    (st.setGen n g).gen n' = if sameLock n n' then g else st.gen n' := by
  unfold St.gen
  rw [setGen_locks]
  by_cases h : sameLock n n'
  · rw [if_pos (show usesLock _ _ _ from h), if_pos h]
  · rw [if_neg (show ¬ usesLock _ _ _ from h), if_neg h]

theorem setGen_bump {st : St} {n : Nat} : st.setGen n (st.gen n + 1) = { st with locks := bumpLocks st.locks [n] } := by
  unfold St.setGen
  congr 1
  funext b i
  simp only [bumpLocks, List.mem_singleton, exists_eq_left, usesLock, eq_comm (a := b), eq_comm (a := i)]
  split
  · rename_i h; unfold St.gen; rw [h.1, h.2]
  · rfl

theorem setGen_back {st : St} {n : Nat} {g g' : Int} (h : st.gen n = g) : (st.setGen n g').setGen n g = st := by
  cases st
  unfold St.setGen
  congr 1
  funext b i
  simp only
  split
  · rename_i h2
    rw [h2.1, h2.2, ← h]
    rfl
  · rfl

theorem bump_gen_same {st : St} {n : Nat} {L : List Nat} (h : ∃ m ∈ L, sameLock m n) :
    ({ st with locks := bumpLocks st.locks L } : St).gen n = st.gen n + 1 := by
  unfold St.gen bumpLocks
  simp only
  rw [if_pos]
  · obtain ⟨m, hm, h1, h2⟩ := h
    exact ⟨m, hm, h1, h2⟩

theorem bump_gen_other {st : St} {n : Nat} {L : List Nat} (h : ¬ ∃ m ∈ L, sameLock m n) :
    ({ st with locks := bumpLocks st.locks L } : St).gen n = st.gen n := by
  unfold St.gen bumpLocks
  simp only
  rw [if_neg]
  · rintro ⟨m, hm, h1, h2⟩
    exact h ⟨m, hm, h1, h2⟩

theorem bump_bump {locks : Nat → Nat → Int} {L : List Nat} {n : Nat} (h : ¬ ∃ m ∈ L, sameLock m n) :
    bumpLocks (bumpLocks locks L) [n] = bumpLocks locks (n :: L) := by
  funext b i
  unfold bumpLocks
  by_cases h1 : usesLock n b i
  · have h2 : ¬ ∃ m ∈ L, usesLock m b i := by
      rintro ⟨m, hm, h3⟩
      exact h ⟨m, hm, h3.1.trans h1.1.symm, h3.2.trans h1.2.symm⟩
    simp [h1, h2]
  · simp [h1]

/-- A list of nodes whose locks are all free (even). -/
def allEven (st : St) (L : List Nat) : Prop := ∀ n ∈ L, st.gen n % 2 = 0

/-- A list of nodes whose locks are all taken (odd). -/
def allOdd (st : St) (L : List Nat) : Prop := ∀ n ∈ L, st.gen n % 2 = 1

/-- Nodes locked together with a node and its parent (`0`: no parent). -/
def lockList2 (node parent : Nat) : List Nat := if parent = 0 then [node] else [node, parent]

/-- Nodes locked by `lockNodes3`. -/
def lockList3 (child node parent : Nat) : List Nat := if parent = 0 then [child, node] else [child, node, parent]

theorem casGen_spec (st : St) (n : Nat) (g : Int) :
    (st.gen n = g ∧ st.casGen n g = (true, { st with locks := bumpLocks st.locks [n] })) ∨
    (st.gen n ≠ g ∧ st.casGen n g = (false, st)) := by
  unfold St.casGen
  by_cases h : st.gen n = g
  · left
    rw [if_pos h]
    refine ⟨h, ?_⟩
    rw [← h, setGen_bump]
  · right
    rw [if_neg h]
    exact ⟨h, rfl⟩

theorem bump_cons_same {locks : Nat → Nat → Int} {L : List Nat} {n : Nat} (h : ∃ m ∈ L, sameLock m n) :
    bumpLocks locks (n :: L) = bumpLocks locks L := by
  apply bumpLocks_congr
  intro b i
  constructor
  · rintro ⟨m, hm, h1⟩
    rcases List.mem_cons.1 hm with rfl | hm
    · obtain ⟨m', hm', h2⟩ := h
      exact ⟨m', hm', h2.1.trans h1.1, h2.2.trans h1.2⟩
    · exact ⟨m, hm, h1⟩
  · rintro ⟨m, hm, h1⟩
    exact ⟨m, List.mem_cons_of_mem _ hm, h1⟩

theorem bumpLocks_perm {locks : Nat → Nat → Int} {L L' : List Nat} (h : ∀ n, n ∈ L ↔ n ∈ L') :
    bumpLocks locks L = bumpLocks locks L' := by
  apply bumpLocks_congr
  intro b i
  simp only [h]

theorem sameLock_comm {a b : Nat} : sameLock a b ↔ sameLock b a := by
  unfold sameLock; omega

theorem sameLock_refl (a : Nat) : sameLock a a := ⟨rfl, rfl⟩

theorem gen_congr {st : St} {a b : Nat} (h : sameLock a b) : st.gen a = st.gen b := by
  unfold St.gen; rw [h.1, h.2]

theorem lockNode_spec (st : St) (n : Nat) (g : Int) :
    (st.gen n = g ∧ g % 2 = 0 ∧ st.lockNode n g = (true, { st with locks := bumpLocks st.locks [n] })) ∨
    ((st.gen n ≠ g ∨ g % 2 = 1) ∧ st.lockNode n g = (false, st)) := by
  unfold St.lockNode
  by_cases h : g % 2 = 1
  · right; rw [if_pos h]; exact ⟨.inr h, rfl⟩
  · rw [if_neg h]
    rcases casGen_spec st n g with ⟨h1, h2⟩ | ⟨h1, h2⟩
    · left; exact ⟨h1, by omega, h2⟩
    · right; exact ⟨.inl h1, h2⟩

/-- `lockNodes2` either takes the locks of the node and its parent, which were free at the given generations, or
changes nothing; it succeeds if the generations are current and even. -/
theorem lockNodes2_spec (st : St) (node : Nat) (ng : Int) (parent : Nat) (pg : Int) :
    (st.gen node = ng ∧ ng % 2 = 0 ∧ (parent ≠ 0 → ¬ sameLock parent node → st.gen parent = pg) ∧
      (parent ≠ 0 → pg % 2 = 0) ∧
      st.lockNodes2 node ng parent pg = (true, { st with locks := bumpLocks st.locks (lockList2 node parent) })) ∨
    ((st.gen node ≠ ng ∨ ng % 2 = 1 ∨ (parent ≠ 0 ∧ (st.gen parent ≠ pg ∨ pg % 2 = 1))) ∧
      st.lockNodes2 node ng parent pg = (false, st)) := by
  unfold St.lockNodes2 lockList2
  by_cases hp : parent = 0
  · simp only [if_pos hp]
    rcases lockNode_spec st node ng with ⟨h1, h2, h3⟩ | ⟨h1, h2⟩
    · left; exact ⟨h1, h2, fun h => absurd hp h, fun h => absurd hp h, h3⟩
    · right; exact ⟨by rcases h1 with h | h <;> simp [h], h2⟩
  · simp only [if_neg hp]
    by_cases ho : ng % 2 = 1 ∨ pg % 2 = 1
    · right; rw [if_pos ho]; refine ⟨?_, rfl⟩; rcases ho with h | h <;> simp [h, hp]
    · rw [if_neg ho]
      rcases casGen_spec st node ng with ⟨h1, h2⟩ | ⟨h1, h2⟩
      · rw [h2]
        simp only
        by_cases hd : lockDiffer parent node = true
        · rw [if_pos hd]
          have hd' := (lockDiffer_iff _ _).1 hd
          have hne : ¬ ∃ m ∈ [node], sameLock m parent := by
            simpa using fun h => hd' (sameLock_comm.1 h)
          rcases casGen_spec { st with locks := bumpLocks st.locks [node] } parent pg with ⟨h3, h4⟩ | ⟨h3, h4⟩
          · rw [h4]
            rw [bump_gen_other hne] at h3
            left
            refine ⟨h1, by omega, fun _ _ => h3, fun _ => by omega, ?_⟩
            simp only
            rw [bump_bump hne]
            congr 2
            apply bumpLocks_perm
            intro n; simp; omega
          · rw [h4]
            rw [bump_gen_other hne] at h3
            right
            refine ⟨.inr (.inr ⟨hp, .inl h3⟩), ?_⟩
            simp only
            rw [bump_gen_same ⟨node, by simp, sameLock_refl _⟩, ← setGen_bump]
            rw [setGen_back (by omega)]
        · rw [if_neg hd]
          have hd' := (lockDiffer_false _ _).1 (by simpa using hd)
          left
          refine ⟨h1, by omega, fun _ h => absurd hd' h, fun _ => by omega, ?_⟩
          congr 2
          rw [← bump_cons_same (n := parent) (L := [node]) ⟨node, by simp, sameLock_comm.1 hd'⟩]
          apply bumpLocks_perm
          intro n; simp; omega
      · rw [h2]
        right
        exact ⟨.inl h1, rfl⟩

/-- `lockNodes3`, likewise. -/
theorem lockNodes3_spec (st : St) (child : Nat) (cg : Int) (node : Nat) (ng : Int) (parent : Nat) (pg : Int)
    (hnode : parent = 0 → node ≠ 0) :
    (st.gen child = cg ∧ cg % 2 = 0 ∧ ng % 2 = 0 ∧ (¬ sameLock node child → st.gen node = ng) ∧
      (parent ≠ 0 → ¬ sameLock parent child → ¬ sameLock parent node → st.gen parent = pg) ∧
      (parent ≠ 0 → pg % 2 = 0) ∧
      st.lockNodes3 child cg node ng parent pg =
        (true, { st with locks := bumpLocks st.locks (lockList3 child node parent) })) ∨
    ((st.gen child ≠ cg ∨ cg % 2 = 1 ∨ st.gen node ≠ ng ∨ ng % 2 = 1 ∨
      (parent ≠ 0 ∧ (st.gen parent ≠ pg ∨ pg % 2 = 1))) ∧
      st.lockNodes3 child cg node ng parent pg = (false, st)) := by
  unfold St.lockNodes3 lockList3
  by_cases hp : parent = 0
  · simp only [if_pos hp]
    rcases lockNodes2_spec st child cg node ng with ⟨h1, h2, h3, h4, h5⟩ | ⟨h1, h2⟩
    · left
      refine ⟨h1, h2, h4 (hnode hp), fun h => h3 (hnode hp) h, fun h => absurd hp h, fun h => absurd hp h, ?_⟩
      rw [h5, lockList2, if_neg (hnode hp)]
    · right
      refine ⟨?_, h2⟩
      rcases h1 with h | h | ⟨_, h | h⟩ <;> simp [h]
  · simp only [if_neg hp]
    by_cases ho : cg % 2 = 1 ∨ ng % 2 = 1 ∨ pg % 2 = 1
    · right; rw [if_pos ho]; refine ⟨?_, rfl⟩; rcases ho with h | h | h <;> simp [h, hp]
    · rw [if_neg ho]
      rcases casGen_spec st child cg with ⟨h1, h2⟩ | ⟨h1, h2⟩
      rotate_left
      · rw [h2]; right; exact ⟨.inl h1, rfl⟩
      rw [h2]
      simp only
      -- the node
      have hnode' : (∃ g, (if lockDiffer node child = true then
            St.casGen { st with locks := bumpLocks st.locks [child] } node ng
          else (true, { st with locks := bumpLocks st.locks [child] })) = (true, { st with locks := g }) ∧
            g = bumpLocks st.locks [node, child] ∧ (¬ sameLock node child → st.gen node = ng)) ∨
          (lockDiffer node child = true ∧ st.gen node ≠ ng ∧ (if lockDiffer node child = true then
            St.casGen { st with locks := bumpLocks st.locks [child] } node ng
          else (true, { st with locks := bumpLocks st.locks [child] })) =
            (false, { st with locks := bumpLocks st.locks [child] })) := by
        by_cases hd : lockDiffer node child = true
        · simp only [if_pos hd]
          have hd' := (lockDiffer_iff _ _).1 hd
          have hne : ¬ ∃ m ∈ [child], sameLock m node := by
            simpa using fun h => hd' (sameLock_comm.1 h)
          rcases casGen_spec { st with locks := bumpLocks st.locks [child] } node ng with ⟨h3, h4⟩ | ⟨h3, h4⟩
          · rw [bump_gen_other hne] at h3
            left
            exact ⟨_, h4, bump_bump hne, fun _ => h3⟩
          · rw [bump_gen_other hne] at h3
            right
            exact ⟨hd, h3, h4⟩
        · simp only [if_neg hd]
          have hd' := (lockDiffer_false _ _).1 (by simpa using hd)
          left
          refine ⟨_, rfl, ?_, fun h => absurd hd' h⟩
          rw [bump_cons_same ⟨child, by simp, sameLock_comm.1 hd'⟩]
      rcases hnode' with ⟨g, e1, e2, e3⟩ | ⟨e1, e2, e3⟩
      rotate_left
      · rw [e3]
        right
        refine ⟨.inr (.inr (.inl e2)), ?_⟩
        simp only
        rw [bump_gen_same ⟨child, by simp, sameLock_refl _⟩, ← setGen_bump, setGen_back (by omega)]
      rw [e1]
      simp only
      subst e2
      by_cases hd : (lockDiffer parent child && lockDiffer parent node) = true
      · rw [if_pos hd]
        have hd1 : ¬ sameLock parent child := (lockDiffer_iff _ _).1 (by simp at hd; exact hd.1)
        have hd2 : ¬ sameLock parent node := (lockDiffer_iff _ _).1 (by simp at hd; exact hd.2)
        have hne : ¬ ∃ m ∈ [node, child], sameLock m parent := by
          simp only [List.mem_cons, List.not_mem_nil, or_false, exists_eq_or_imp, exists_eq_left]
          rintro (h | h)
          · exact hd2 (sameLock_comm.1 h)
          · exact hd1 (sameLock_comm.1 h)
        rcases casGen_spec { st with locks := bumpLocks st.locks [node, child] } parent pg with ⟨h3, h4⟩ | ⟨h3, h4⟩
        · rw [h4]
          rw [bump_gen_other hne] at h3
          left
          refine ⟨h1, by omega, by omega, e3, fun _ _ _ => h3, fun _ => by omega, ?_⟩
          simp only
          rw [bump_bump hne]
          congr 2
          apply bumpLocks_perm
          intro n; simp; omega
        · rw [h4]
          rw [bump_gen_other hne] at h3
          right
          refine ⟨.inr (.inr (.inr (.inr ⟨hp, .inl h3⟩))), ?_⟩
          simp only
          by_cases hdn : lockDiffer node child = true
          · have hdn' := (lockDiffer_iff _ _).1 hdn
            rw [if_pos hdn]
            have hne1 : ¬ ∃ m ∈ [node], sameLock m child := by simpa using hdn'
            have hne2 : ¬ ∃ m ∈ [child], sameLock m node := by
              simpa using fun h => hdn' (sameLock_comm.1 h)
            rw [bump_gen_same ⟨child, by simp, sameLock_refl _⟩]
            have hswap : bumpLocks st.locks [node, child] = bumpLocks st.locks [child, node] :=
              bumpLocks_perm (by intro n; simp; omega)
            rw [hswap, ← bump_bump hne1]
            have hs : ({ st with locks := bumpLocks (bumpLocks st.locks [node]) [child] } : St) =
                St.setGen { st with locks := bumpLocks st.locks [node] } child (st.gen child + 1) := by
              have := setGen_bump (st := { st with locks := bumpLocks st.locks [node] }) (n := child)
              rw [bump_gen_other hne1] at this
              exact this.symm
            rw [hs, setGen_back (by rw [bump_gen_other hne1]; omega)]
            rw [bump_gen_same ⟨node, by simp, sameLock_refl _⟩, ← setGen_bump, setGen_back (by omega)]
          · have hdn' := (lockDiffer_false _ _).1 (by simpa using hdn)
            rw [if_neg hdn]
            rw [bump_cons_same (n := node) (L := [child]) ⟨child, by simp, sameLock_comm.1 hdn'⟩]
            rw [bump_gen_same ⟨child, by simp, sameLock_refl _⟩, ← setGen_bump, setGen_back (by omega)]
      · rw [if_neg hd]
        have hd' : sameLock parent child ∨ sameLock parent node := by
          by_cases h : sameLock parent child
          · exact .inl h
          · right
            by_cases h2 : sameLock parent node
            · exact h2
            · exact absurd (by simp [(lockDiffer_iff _ _).2 h, (lockDiffer_iff _ _).2 h2]) hd
        left
        refine ⟨h1, by omega, by omega, e3, ?_, fun _ => by omega, ?_⟩
        · intro _ h2 h3; rcases hd' with h | h
          · exact absurd h h2
          · exact absurd h h3
        · congr 2
          rw [← bump_cons_same (n := parent) (L := [node, child])]
          · apply bumpLocks_perm
            intro n; simp; omega
          · rcases hd' with h | h
            · exact ⟨child, by simp, sameLock_comm.1 h⟩
            · exact ⟨node, by simp, sameLock_comm.1 h⟩

theorem unlockNode_spec {st : St} {n : Nat} (h : st.gen n % 2 = 1) :
    st.unlockNode n = .ok { st with locks := bumpLocks st.locks [n] } := by
  unfold St.unlockNode
  rw [if_pos (by omega), setGen_bump]

/-- Releasing two held locks. -/
theorem unlockNodes2_spec {st : St} {node parent : Nat} (h : allOdd st (lockList2 node parent)) :
    st.unlockNodes2 node parent = .ok { st with locks := bumpLocks st.locks (lockList2 node parent) } := by
  unfold St.unlockNodes2 lockList2 at *
  by_cases hp : parent = 0
  · simp only [if_pos hp] at *
    exact unlockNode_spec (h node (by simp))
  · simp only [if_neg hp] at *
    rw [unlockNode_spec (h parent (by simp))]
    simp only [bind, Except.bind]
    by_cases hd : lockDiffer node parent = true
    · rw [if_pos hd]
      have hd' := (lockDiffer_iff _ _).1 hd
      have hne : ¬ ∃ m ∈ [parent], sameLock m node := by simpa using fun h => hd' (sameLock_comm.1 h)
      rw [unlockNode_spec (by rw [bump_gen_other hne]; exact h node (by simp))]
      simp only
      rw [bump_bump hne]
    · rw [if_neg hd]
      have hd' := (lockDiffer_false _ _).1 (by simpa using hd)
      simp only [pure, Except.pure]
      rw [bump_cons_same ⟨parent, by simp, sameLock_comm.1 hd'⟩]

/-- Releasing three held locks (the third one nonzero), in whatever order the nodes are given. -/
theorem unlockNodes3_spec {st : St} {child node parent : Nat} (hp : parent ≠ 0)
    (h : allOdd st [child, node, parent]) :
    st.unlockNodes3 child node parent = .ok { st with locks := bumpLocks st.locks [child, node, parent] } := by
  unfold St.unlockNodes3
  rw [if_neg hp, unlockNode_spec (h parent (by simp))]
  simp only [bind, Except.bind]
  have fin : (if (lockDiffer child parent && lockDiffer child node) = true then
      St.unlockNode { st with locks := bumpLocks st.locks [node, parent] } child
      else Except.ok { st with locks := bumpLocks st.locks [node, parent] }) =
      .ok { st with locks := bumpLocks st.locks [child, node, parent] } := by
    by_cases hd : (lockDiffer child parent && lockDiffer child node) = true
    · rw [if_pos hd]
      have hd1 : ¬ sameLock child parent := (lockDiffer_iff _ _).1 (by simp at hd; exact hd.1)
      have hd2 : ¬ sameLock child node := (lockDiffer_iff _ _).1 (by simp at hd; exact hd.2)
      have hne : ¬ ∃ m ∈ [node, parent], sameLock m child := by
        simp only [List.mem_cons, List.not_mem_nil, or_false, exists_eq_or_imp, exists_eq_left]
        rintro (h | h)
        · exact hd2 (sameLock_comm.1 h)
        · exact hd1 (sameLock_comm.1 h)
      rw [unlockNode_spec (by rw [bump_gen_other hne]; exact h child (by simp))]
      simp only
      rw [bump_bump hne]
    · rw [if_neg hd]
      rw [bump_cons_same (n := child)]
      by_cases h2 : sameLock child parent
      · exact ⟨parent, by simp, sameLock_comm.1 h2⟩
      · by_cases h3 : sameLock child node
        · exact ⟨node, by simp, sameLock_comm.1 h3⟩
        · exact absurd (by simp [(lockDiffer_iff _ _).2 h2, (lockDiffer_iff _ _).2 h3]) hd
  by_cases hd : lockDiffer node parent = true
  · rw [if_pos hd]
    have hd' := (lockDiffer_iff _ _).1 hd
    have hne : ¬ ∃ m ∈ [parent], sameLock m node := by simpa using fun h => hd' (sameLock_comm.1 h)
    rw [unlockNode_spec (by rw [bump_gen_other hne]; exact h node (by simp))]
    simp only [pure, Except.pure]
    rw [bump_bump hne]
    exact fin
  · rw [if_neg hd]
    have hd' := (lockDiffer_false _ _).1 (by simpa using hd)
    simp only [pure, Except.pure]
    rw [← bump_cons_same (n := node) ⟨parent, by simp, sameLock_comm.1 hd'⟩]
    exact fin

theorem unlockList3_spec {st : St} {child node parent : Nat} (hn : node ≠ 0)
    (h : allOdd st (lockList3 child node parent)) :
    st.unlockNodes3 child node parent = .ok { st with locks := bumpLocks st.locks (lockList3 child node parent) } := by
  unfold lockList3 at *
  by_cases hp : parent = 0
  · simp only [if_pos hp] at *
    unfold St.unlockNodes3
    rw [if_pos hp, unlockNodes2_spec (by simpa [lockList2, hn] using h)]
    simp [lockList2, hn]
  · simp only [if_neg hp] at *
    exact unlockNodes3_spec hp h

end Radix
