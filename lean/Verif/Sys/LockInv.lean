import Verif.Sys.Rest
/-!
# Locks, in all executions

The invariant of the locks does not depend on the tree: it holds in every execution in which no merge with a node is aborted in a way that
delete.go:344 releases the wrong locks.
-/
set_option autoImplicit false
namespace Radix

/-- The locks held by each allocator are `u`: a lock word is odd if and only if it is held by somebody, nobody shares a lock word with another
allocator, and the root lock is likewise. -/
structure LOn (st : St) (u : Nat → Unlock) : Prop where
  odd : ∀ a, allOdd st (u a).list
  excl : ∀ a b, a ≠ b → ∀ n ∈ (u a).list, ∀ m ∈ (u b).list, ¬ sameLock n m
  root : (st.rootLock = 0 ∧ ∀ a, u a ≠ .root) ∨ (st.rootLock = 1 ∧ ∃ a, u a = .root ∧ ∀ b, u b = .root → b = a)
  held : ∀ n, st.gen n % 2 = 1 → ∃ a, ∃ m ∈ (u a).list, sameLock m n

theorem LOn.same {st st' : St} {u u' : Nat → Unlock} (h : LOn st u) (hl : st'.locks = st.locks) (hr : st'.rootLock = st.rootLock)
    (hu : ∀ b, (u' b) = (u b)) : LOn st' u' where
  odd b n hn := by rw [hu b] at hn; rw [gen_of_locks hl]; exact h.odd b n hn
  excl a b hab n hn m hm := by rw [hu] at hn hm; exact h.excl a b hab n hn m hm
  root := by
    rw [hr]
    simp only [hu]
    exact h.root
  held n hn := by
    rw [gen_of_locks hl] at hn
    obtain ⟨a, m, h1, h2⟩ := h.held n hn
    exact ⟨a, m, by rw [hu]; exact h1, h2⟩

theorem LOn.acquire {st st' : St} {u u' : Nat → Unlock} {a : Nat} {L : List Nat} (h : LOn st u) (hl : st'.locks = bumpLocks st.locks L)
    (hr : st'.rootLock = st.rootLock) (he : allEven st L) (hu : ∀ b, b ≠ a → (u' b) = (u b))
    (h0 : (u a) = .none) (h1 : (u' a).list = L) (h2 : (u' a) ≠ .root) : LOn st' u' := by
  have hno : ∀ n, st.gen n % 2 = 1 → ¬ ∃ m ∈ L, sameLock m n := by
    rintro n hn ⟨m, hm, hs⟩
    have := he m hm
    rw [gen_congr hs] at this
    omega
  refine ⟨?_, ?_, ?_, ?_⟩
  · intro b n hn
    by_cases hb : b = a
    · subst hb
      rw [h1] at hn
      rw [gen_bump_same hl ⟨n, hn, sameLock_refl n⟩]
      have := he n hn
      omega
    · rw [hu b hb] at hn
      have := h.odd b n hn
      rw [gen_bump_other hl (hno n this)]
      exact this
  · intro b c hbc n hn m hm
    by_cases hb : b = a
    · subst hb
      rw [h1] at hn
      rw [hu c (Ne.symm hbc)] at hm
      intro hs
      exact hno m (h.odd c m hm) ⟨n, hn, hs⟩
    · rw [hu b hb] at hn
      by_cases hc : c = a
      · subst hc
        rw [h1] at hm
        intro hs
        exact hno n (h.odd b n hn) ⟨m, hm, sameLock_comm.1 hs⟩
      · rw [hu c hc] at hm
        exact h.excl b c hbc n hn m hm
  · rw [hr]
    rcases h.root with ⟨g1, g2⟩ | ⟨g1, b, g2, g3⟩
    · refine .inl ⟨g1, fun c => ?_⟩
      by_cases hc : c = a
      · subst hc; exact h2
      · rw [hu c hc]; exact g2 c
    · have hba : b ≠ a := by rintro rfl; rw [h0] at g2; cases g2
      refine .inr ⟨g1, b, by rw [hu b hba]; exact g2, fun c hc => ?_⟩
      by_cases hca : c = a
      · subst hca; exact absurd hc h2
      · rw [hu c hca] at hc; exact g3 c hc
  · intro n hn
    by_cases hs : ∃ m ∈ L, sameLock m n
    · obtain ⟨m, hm, hs⟩ := hs
      exact ⟨a, m, by rw [h1]; exact hm, hs⟩
    · rw [gen_bump_other hl hs] at hn
      obtain ⟨b, m, g1, g2⟩ := h.held n hn
      have hb : b ≠ a := by
        rintro rfl
        rw [h0] at g1
        simp [Unlock.list] at g1
      exact ⟨b, m, by rw [hu b hb]; exact g1, g2⟩

theorem LOn.acquireRoot {st st' : St} {u u' : Nat → Unlock} {a : Nat} (h : LOn st u) (hl : st'.locks = st.locks)
    (hr0 : st.rootLock = 0) (hr : st'.rootLock = 1) (hu : ∀ b, b ≠ a → (u' b) = (u b))
    (h0 : (u a) = .none) (h1 : (u' a) = .root) : LOn st' u' := by
  have hlist : ∀ b, (u' b).list = (u b).list := by
    intro b
    by_cases hb : b = a
    · subst hb; rw [h0, h1]; rfl
    · rw [hu b hb]
  refine ⟨?_, ?_, ?_, ?_⟩
  · intro b n hn
    rw [hlist] at hn
    rw [gen_of_locks hl]; exact h.odd b n hn
  · intro b c hbc n hn m hm
    rw [hlist] at hn hm
    exact h.excl b c hbc n hn m hm
  · refine .inr ⟨hr, a, h1, ?_⟩
    intro b hb
    rcases h.root with ⟨_, g⟩ | ⟨g, _⟩
    · by_cases hba : b = a
      · exact hba
      · rw [hu b hba] at hb; exact absurd hb (g b)
    · omega
  · intro n hn
    rw [gen_of_locks hl] at hn
    obtain ⟨b, m, g1, g2⟩ := h.held n hn
    exact ⟨b, m, by rw [hlist]; exact g1, g2⟩

theorem LOn.release {st st' : St} {u u' : Nat → Unlock} {a : Nat} (h : LOn st u) (hl : st'.locks = bumpLocks st.locks (u a).list)
    (hr : st'.rootLock = st.rootLock - (u a).rootN) (hu : ∀ b, b ≠ a → (u' b) = (u b))
    (h1 : (u' a) = .none) : LOn st' u' := by
  have hnone : ∀ n, n ∉ (u' a).list := by rw [h1]; simp [Unlock.list]
  refine ⟨?_, ?_, ?_, ?_⟩
  · intro b n hn
    by_cases hb : b = a
    · subst hb; exact absurd hn (hnone n)
    · rw [hu b hb] at hn
      rw [gen_bump_other hl]
      · exact h.odd b n hn
      · rintro ⟨m, hm, hs⟩
        exact h.excl a b (Ne.symm hb) m hm n hn hs
  · intro b c hbc n hn m hm
    by_cases hb : b = a
    · subst hb; exact absurd hn (hnone n)
    · by_cases hc : c = a
      · subst hc; exact absurd hm (hnone m)
      · rw [hu b hb] at hn
        rw [hu c hc] at hm
        exact h.excl b c hbc n hn m hm
  · rcases h.root with ⟨g1, g2⟩ | ⟨g1, b, g2, g3⟩
    · refine .inl ⟨?_, fun c => ?_⟩
      · rw [hr, g1]
        have := g2 a
        cases hua : (u a) <;> simp_all [Unlock.rootN]
      · by_cases hc : c = a
        · subst hc; rw [h1]; simp
        · rw [hu c hc]; exact g2 c
    · by_cases hba : b = a
      · subst hba
        refine .inl ⟨by rw [hr, g1, g2]; rfl, fun c hc => ?_⟩
        by_cases hcb : c = b
        · subst hcb; rw [h1] at hc; cases hc
        · rw [hu c hcb] at hc
          exact hcb (g3 c hc)
      · refine .inr ⟨?_, b, by rw [hu b hba]; exact g2, ?_⟩
        · rw [hr, g1]
          have : (u a) ≠ .root := fun e => hba (g3 a e).symm
          cases hua : (u a) <;> simp_all [Unlock.rootN]
        · intro c hc
          by_cases hca : c = a
          · subst hca; rw [h1] at hc; cases hc
          · rw [hu c hca] at hc; exact g3 c hc
  · intro n hn
    by_cases hs : ∃ m ∈ (u a).list, sameLock m n
    · rw [gen_bump_same hl hs] at hn
      obtain ⟨m, hm, hs⟩ := hs
      have := h.odd a m hm
      rw [gen_congr hs] at this
      omega
    · rw [gen_bump_other hl hs] at hn
      obtain ⟨b, m, g1, g2⟩ := h.held n hn
      have hb : b ≠ a := by
        rintro rfl
        exact hs ⟨m, g1, g2⟩
      exact ⟨b, m, by rw [hu b hb]; exact g1, g2⟩

/-! ## What publishing leaves alone -/

/-- Locks and number of allocators are the same. -/
structure Ctl (st st' : St) : Prop where
  locks : st'.locks = st.locks
  rootLock : st'.rootLock = st.rootLock
  nalloc : st'.nalloc = st.nalloc
  resv : st'.resv = st.resv

theorem Ctl.refl (st : St) : Ctl st st := ⟨rfl, rfl, rfl, rfl⟩

theorem Ctl.trans {st st' st'' : St} (h : Ctl st st') (h' : Ctl st' st'') : Ctl st st'' :=
  ⟨h'.locks.trans h.locks, h'.rootLock.trans h.rootLock, h'.nalloc.trans h.nalloc, h'.resv.trans h.resv⟩

theorem Ctl.mem {st st' : St} (h : Ctl st st') (m : Mem) : Ctl st { st' with mem := m } := ⟨h.locks, h.rootLock, h.nalloc, h.resv⟩

theorem Ctl.store {st st' : St} (h : Ctl st st') (p : Ptr) (w : Word) : Ctl st (st'.store p w) := by
  unfold St.store
  cases p <;> exact ⟨h.locks, h.rootLock, h.nalloc, h.resv⟩

theorem Ctl.cas {st st' : St} (h : Ctl st st') (p : Ptr) (o w : Word) : Ctl st (st'.cas p o w).2 := by
  unfold St.cas
  split
  · exact h.store p w
  · exact h

theorem bind_ok {α β : Type} {x : Res α} {f : α → Res β} {b : β} (h : (x >>= f) = .ok b) : ∃ a, x = .ok a ∧ f a = .ok b := by
  cases x with
  | error e => cases h
  | ok a => exact ⟨a, rfl, h⟩

theorem blockStep_ctl {st st' : St} (h : st.blockStep = .ok st') : Ctl st st' := by
  unfold St.blockStep at h
  split at h
  · cases h; exact .refl _
  · split at h
    · cases h; exact ⟨rfl, rfl, rfl, rfl⟩
    · cases h

theorem newNode_ctl {st st' : St} {a slots n : Nat} (h : st.newNode a slots = .ok (n, st')) : Ctl st st' := by
  unfold St.newNode at h
  simp only at h
  split at h
  · cases h; exact ⟨rfl, rfl, rfl, rfl⟩
  · unfold St.allocFresh at h
    simp only at h
    split at h
    · obtain ⟨st1, h1, h2⟩ := bind_ok h
      have := blockStep_ctl h1
      cases h2
      exact ⟨this.locks, this.rootLock, this.nalloc, this.resv⟩
    · cases h; exact ⟨rfl, rfl, rfl, rfl⟩

theorem allocNode_ctl {st st' : St} {a count plen n : Nat} {d : Slice} (h : st.allocNode a count plen = .ok (n, d, st')) : Ctl st st' := by
  unfold St.allocNode at h
  obtain ⟨⟨n1, st1⟩, h1, h⟩ := bind_ok h
  obtain ⟨d1, h2, h⟩ := bind_ok h
  cases h
  exact newNode_ctl h1

theorem allocNodeP_ctl {st st' : St} {a count n : Nat} {pfx : List UInt8} {d : Slice} (h : st.allocNodeP a count pfx = .ok (n, d, st')) :
    Ctl st st' := by
  unfold St.allocNodeP at h
  obtain ⟨⟨n1, st1⟩, h1, h⟩ := bind_ok h
  obtain ⟨d1, h2, h⟩ := bind_ok h
  split at h
  · obtain ⟨m, h3, h⟩ := bind_ok h
    obtain ⟨d2, h4, h⟩ := bind_ok h
    cases h
    exact (newNode_ctl h1).mem m
  · cases h
    exact newNode_ctl h1

/-- The locks that are released after a change are those of the operation. -/
def Commit.Unl (cm : Commit) (u : Unlock) : Prop := cm.ok.unl = u ∧ (cm.exp.isSome = true → cm.ko.unl = u)

theorem commit_unl {st : St} {cm : Commit} {u : Unlock} (h : cm.Unl u) : (st.commit cm).2.1.unl = u := by
  unfold St.commit
  split
  · exact h.1
  · rename_i w e
    dsimp only
    split
    · exact h.1
    · exact h.2 (by rw [e]; rfl)

theorem commit_ctl (st : St) (cm : Commit) : Ctl st (st.commit cm).2.2 := by
  unfold St.commit
  split
  · exact (Ctl.refl st).store _ _
  · exact (Ctl.refl st).cas _ _ _

theorem buildU_ctl {st st' : St} {a : Nat} {op : UpdOp} {fetched : Key} {isMatch : Bool} {value : Word} {cm : Commit}
    (h : buildU st a op fetched isMatch value = .ok (cm, st')) : Ctl st st' ∧ cm.Unl op.unl := by
  unfold buildU at h
  unfold UpdOp.unl
  split at h
  · cases h; exact ⟨.refl st, by simp [Commit.Unl, *]⟩
  · obtain ⟨⟨n, d, st1⟩, h1, h⟩ := bind_ok h
    obtain ⟨m, h2, h⟩ := bind_ok h
    cases h
    exact ⟨(allocNode_ctl h1).mem m, by simp [Commit.Unl, *]⟩
  · split at h
    · cases h; exact ⟨.refl st, by simp [Commit.Unl, *]⟩
    · obtain ⟨pl, h0, h⟩ := bind_ok h
      obtain ⟨⟨n, d, st1⟩, h1, h⟩ := bind_ok h
      obtain ⟨ka, h2, h⟩ := bind_ok h
      obtain ⟨kb, h3, h⟩ := bind_ok h
      obtain ⟨m, h4, h⟩ := bind_ok h
      cases h
      exact ⟨(allocNodeP_ctl h1).mem m, by simp [Commit.Unl, *]⟩
  · obtain ⟨ka, h2, h⟩ := bind_ok h
    obtain ⟨kb, h3, h⟩ := bind_ok h
    obtain ⟨⟨n, d, st1⟩, h1, h⟩ := bind_ok h
    obtain ⟨src, h4, h⟩ := bind_ok h
    obtain ⟨ws, h5, h⟩ := bind_ok h
    obtain ⟨⟨n', d', st2⟩, h6, h⟩ := bind_ok h
    obtain ⟨m, h7, h⟩ := bind_ok h
    cases h
    exact ⟨((((allocNodeP_ctl h1).mem _).trans (allocNodeP_ctl h6)).mem m), by simp [Commit.Unl, *]⟩
  · cases h; exact ⟨.refl st, by simp [Commit.Unl, *]⟩
  · split at h
    · obtain ⟨⟨n, d, st1⟩, h1, h⟩ := bind_ok h
      obtain ⟨ws1, h2, h⟩ := bind_ok h
      obtain ⟨m, h3, h⟩ := bind_ok h
      obtain ⟨src2, h4, h⟩ := bind_ok h
      obtain ⟨ws2, h5, h⟩ := bind_ok h
      obtain ⟨d2, h6, h⟩ := bind_ok h
      cases h
      exact ⟨(allocNode_ctl h1).mem _, by simp [Commit.Unl, *]⟩
    · obtain ⟨⟨n, d, st1⟩, h1, h⟩ := bind_ok h
      obtain ⟨ws1, h2, h⟩ := bind_ok h
      obtain ⟨src2, h4, h⟩ := bind_ok h
      obtain ⟨m, h3, h⟩ := bind_ok h
      obtain ⟨ws2, h5, h⟩ := bind_ok h
      obtain ⟨m2, h6, h⟩ := bind_ok h
      cases h
      exact ⟨(allocNodeP_ctl h1).mem _, by simp [Commit.Unl, *]⟩
  all_goals
    split at h
    · cases h; exact ⟨.refl st, by simp [Commit.Unl, *]⟩
    · obtain ⟨ka, h2, h⟩ := bind_ok h
      obtain ⟨kb, h3, h⟩ := bind_ok h
      obtain ⟨⟨n, d, st1⟩, h1, h⟩ := bind_ok h
      obtain ⟨m, h4, h⟩ := bind_ok h
      cases h
      exact ⟨(allocNodeP_ctl h1).mem m, by simp [Commit.Unl, *]⟩

theorem publishU_ctl {st st' : St} {a : Nat} {op : UpdOp} {fetched : Key} {isMatch : Bool} {value : Word} {b : Bool} {tl : Tail}
    (h : publishU st a op fetched isMatch value = .ok (b, tl, st')) : Ctl st st' ∧ tl.unl = op.unl := by
  rw [publishU_eq] at h
  obtain ⟨⟨cm, st1⟩, h1, h2⟩ := bind_ok h
  obtain ⟨g1, g2⟩ := buildU_ctl h1
  have e : st1.commit cm = (b, tl, st') := by injection h2
  have e1 := commit_ctl st1 cm
  have e2 := commit_unl (st := st1) g2
  rw [e] at e1 e2
  exact ⟨g1.trans e1, e2⟩

theorem buildD_ctl {st st' : St} {a : Nat} {op : DelOp} {cm : Commit} (h : buildD st a op = .ok (cm, st')) :
    Ctl st st' ∧ cm.Unl op.unl := by
  unfold buildD at h
  unfold DelOp.unl
  split at h
  · cases h; exact ⟨.refl st, by simp [Commit.Unl, *]⟩
  · cases h; exact ⟨.refl st, by simp [Commit.Unl, *]⟩
  · obtain ⟨⟨n, d, st1⟩, h1, h⟩ := bind_ok h
    obtain ⟨src, h4, h⟩ := bind_ok h
    obtain ⟨ws, h5, h⟩ := bind_ok h
    cases h
    exact ⟨(allocNodeP_ctl h1).mem _, by simp [Commit.Unl, *]⟩
  · obtain ⟨⟨n, d, st1⟩, h1, h⟩ := bind_ok h
    obtain ⟨_, h2, h⟩ := bind_ok h
    obtain ⟨ws1, h2, h⟩ := bind_ok h
    obtain ⟨src2, h4, h⟩ := bind_ok h
    obtain ⟨ws2, h5, h⟩ := bind_ok h
    obtain ⟨d2, h6, h⟩ := bind_ok h
    cases h
    exact ⟨(allocNode_ctl h1).mem _, by simp [Commit.Unl, *]⟩
  · cases h; exact ⟨.refl st, by simp [Commit.Unl, *]⟩
  · cases h

theorem publishD_ctl {st st' : St} {a : Nat} {op : DelOp} {b : Bool} {tl : Tail} (h : publishD st a op = .ok (b, tl, st')) :
    Ctl st st' ∧ tl.unl = op.unl := by
  unfold publishD at h
  unfold DelOp.unl
  split at h
  · cases h; exact ⟨(Ctl.refl st).store _ _, by simp [*]⟩
  · cases h; exact ⟨(Ctl.refl st).store _ _, by simp [*]⟩
  · obtain ⟨⟨n, d, st1⟩, h1, h⟩ := bind_ok h
    obtain ⟨src, h4, h⟩ := bind_ok h
    obtain ⟨ws, h5, h⟩ := bind_ok h
    cases h
    exact ⟨((allocNodeP_ctl h1).mem _).store _ _, by simp [*]⟩
  · obtain ⟨⟨n, d, st1⟩, h1, h⟩ := bind_ok h
    obtain ⟨_, h2, h⟩ := bind_ok h
    obtain ⟨ws1, h2, h⟩ := bind_ok h
    obtain ⟨src2, h4, h⟩ := bind_ok h
    obtain ⟨ws2, h5, h⟩ := bind_ok h
    obtain ⟨d2, h6, h⟩ := bind_ok h
    cases h
    exact ⟨((allocNode_ctl h1).mem _).store _ _, by simp [*]⟩
  · cases h; exact ⟨(Ctl.refl st).cas _ _ _, by simp [*]⟩
  · cases h; exact ⟨.refl _, by simp [*]⟩

theorem recycle_ctl {st st' : St} {a n slots : Nat} (h : st.recycle a n slots = .ok st') : Ctl st st' := by
  unfold St.recycle at h
  split at h
  · cases h; exact .refl _
  · split at h
    · simp only at h
      split at h <;> (cases h; exact ⟨rfl, rfl, rfl, rfl⟩)
    · cases h

/-! ## Locking and unlocking -/

/-- The locks held are named differently. -/
theorem LOn.rename {st st' : St} {u u' : Nat → Unlock} {a : Nat} (h : LOn st u) (hl : st'.locks = st.locks) (hr : st'.rootLock = st.rootLock)
    (hu : ∀ b, b ≠ a → (u' b) = (u b))
    (h1 : ∀ m ∈ (u' a).list, ∃ m' ∈ (u a).list, sameLock m' m)
    (h2 : ∀ m ∈ (u a).list, ∃ m' ∈ (u' a).list, sameLock m' m)
    (h3 : (u' a) = .root ↔ (u a) = .root) : LOn st' u' := by
  have key : ∀ b, ∀ m ∈ (u' b).list, ∃ m' ∈ (u b).list, sameLock m' m := by
    intro b m hm
    by_cases hb : b = a
    · subst hb; exact h1 m hm
    · rw [hu b hb] at hm; exact ⟨m, hm, sameLock_refl _⟩
  have hroot : ∀ b, (u' b) = .root ↔ (u b) = .root := by
    intro b
    by_cases hb : b = a
    · subst hb; exact h3
    · rw [hu b hb]
  refine ⟨?_, ?_, ?_, ?_⟩
  · intro b m hm
    obtain ⟨m', hm', hs⟩ := key b m hm
    rw [gen_of_locks hl, ← gen_congr hs]
    exact h.odd b m' hm'
  · intro b c hbc n hn m hm hs
    obtain ⟨n', hn', hs1⟩ := key b n hn
    obtain ⟨m', hm', hs2⟩ := key c m hm
    exact h.excl b c hbc n' hn' m' hm' (sameLock_trans (sameLock_trans hs1 hs) (sameLock_comm.1 hs2))
  · rw [hr]
    simp only [hroot, ne_eq]
    exact h.root
  · intro n hn
    rw [gen_of_locks hl] at hn
    obtain ⟨b, m, g1, g2⟩ := h.held n hn
    by_cases hb : b = a
    · subst hb
      obtain ⟨m', g3, g4⟩ := h2 m g1
      exact ⟨b, m', g3, sameLock_trans g4 g2⟩
    · exact ⟨b, m, by rw [hu b hb]; exact g1, g2⟩

/-- One of the locks is released. -/
theorem LOn.releaseOne {st st' : St} {u u' : Nat → Unlock} {a n : Nat} (h : LOn st u) (hl : st'.locks = bumpLocks st.locks [n])
    (hr : st'.rootLock = st.rootLock) (hu : ∀ b, b ≠ a → (u' b) = (u b))
    (h0 : n ∈ (u a).list) (h1 : ∀ m ∈ (u' a).list, m ∈ (u a).list ∧ ¬ sameLock m n)
    (h2 : ∀ m ∈ (u a).list, sameLock m n ∨ m ∈ (u' a).list)
    (h3 : (u a) ≠ .root) (h4 : (u' a) ≠ .root) : LOn st' u' := by
  have key : ∀ b, ∀ m ∈ (u' b).list, m ∈ (u b).list ∧ ¬ sameLock m n := by
    intro b m hm
    by_cases hb : b = a
    · subst hb; exact h1 m hm
    · rw [hu b hb] at hm
      exact ⟨hm, h.excl b a hb m hm n h0⟩
  have hroot : ∀ b, (u' b) = .root ↔ (u b) = .root := by
    intro b
    by_cases hb : b = a
    · subst hb; exact ⟨fun e => absurd e h4, fun e => absurd e h3⟩
    · rw [hu b hb]
  refine ⟨?_, ?_, ?_, ?_⟩
  · intro b m hm
    obtain ⟨hm', hs⟩ := key b m hm
    rw [gen_bump_other hl (by simpa using fun e => hs (sameLock_comm.1 e))]
    exact h.odd b m hm'
  · intro b c hbc n hn m hm hs
    exact h.excl b c hbc n (key b n hn).1 m (key c m hm).1 hs
  · rw [hr]
    simp only [hroot, ne_eq]
    exact h.root
  · intro x hx
    by_cases hs : sameLock n x
    · rw [gen_bump_same hl ⟨n, by simp, hs⟩] at hx
      have := h.odd a n h0
      rw [gen_congr hs] at this
      omega
    · rw [gen_bump_other hl (by simpa using hs)] at hx
      obtain ⟨b, m, g1, g2⟩ := h.held x hx
      by_cases hb : b = a
      · subst hb
        rcases h2 m g1 with g | g
        · exact absurd (sameLock_trans (sameLock_comm.1 g) g2) hs
        · exact ⟨b, m, g, g2⟩
      · exact ⟨b, m, by rw [hu b hb]; exact g1, g2⟩

theorem LOn.releaseRoot {st st' : St} {u u' : Nat → Unlock} {a : Nat} (h : LOn st u) (hl : st'.locks = st.locks)
    (hr : st'.rootLock = st.rootLock - 1) (hu : ∀ b, b ≠ a → (u' b) = (u b)) (h0 : u a = .root) (h1 : u' a = .none) : LOn st' u' := by
  refine h.release (a := a) ?_ ?_ hu h1
  · rw [h0]; exact hl.trans (bumpLocks_nil _).symm
  · rw [h0]; exact hr


/-- `lockNodes3` and `unlockNodes3` without a parent are `lockNodes2` and `unlockNodes2` (locks.go:43, 85). -/
def Unlock.norm : Unlock → Unlock
  | .three c n p => if p = 0 then .two c n else .three c n p
  | u => u

theorem unlockBy_norm (st : St) (u : Unlock) : st.unlockBy u.norm = st.unlockBy u := by
  cases u with
  | three c n p =>
    simp only [Unlock.norm]
    split
    · rename_i h
      simp only [St.unlockBy, St.unlockNodes3, if_pos h]
    · rfl
  | _ => rfl

theorem norm_root {u : Unlock} : u.norm = .root ↔ u = .root := by
  cases u with
  | three c n p => simp only [Unlock.norm]; split <;> simp
  | _ => simp [Unlock.norm]

/-- Unlocking what is held. -/
theorem unlockNorm_spec {st : St} {u : Unlock} (h : allOdd st u.norm.list) :
    st.unlockBy u = .ok { st with locks := bumpLocks st.locks u.norm.list, rootLock := st.rootLock - u.norm.rootN } := by
  rw [← unlockBy_norm]
  unfold Unlock.norm at *
  cases u with
  | none => simp [St.unlockBy, Unlock.list, Unlock.rootN, bumpLocks_nil]
  | root => simp [St.unlockBy, Unlock.list, Unlock.rootN, bumpLocks_nil, St.unlockRoot]
  | two n p =>
    have := unlockNodes2_spec (st := st) (node := n) (parent := p) h
    simpa [St.unlockBy, Unlock.list, Unlock.rootN] using this
  | three c n p =>
    simp only at h ⊢
    split at h
    · rename_i hp
      have := unlockNodes2_spec (st := st) (node := c) (parent := n) h
      simpa [St.unlockBy, Unlock.list, Unlock.rootN, hp] using this
    · rename_i hp
      simp only [Unlock.list, lockList3, if_neg hp] at h
      have := unlockNodes3_spec (st := st) (child := c) (node := n) hp h
      simpa [St.unlockBy, Unlock.list, Unlock.rootN, hp, lockList3] using this
  | words l =>
    have := unlockWords_all (st := st) (l := l) h
    simpa [St.unlockBy, Unlock.list, Unlock.rootN] using this

/-- The locks are released in some order. -/
theorem plan_norm {u : Unlock} (hu : u ≠ .root) : (∀ m, m ∈ u.plan ↔ m ∈ u.norm.list) := by
  intro m
  cases u with
  | none => rfl
  | root => exact absurd rfl hu
  | two n p =>
    by_cases hp : p = 0
    · simp [Unlock.plan, Unlock.norm, Unlock.list, lockList2, hp]
    · simp [Unlock.plan, Unlock.norm, Unlock.list, lockList2, hp]; exact Or.comm
  | three c n p =>
    by_cases hp : p = 0
    · by_cases hn : n = 0
      · simp [Unlock.plan, Unlock.norm, Unlock.list, lockList2, hp, hn]
      · simp [Unlock.plan, Unlock.norm, Unlock.list, lockList2, hp, hn]; exact Or.comm
    · simp only [Unlock.plan, Unlock.norm, hp, if_false, Unlock.list, lockList3, List.mem_cons, List.not_mem_nil, or_false]
      constructor
      · rintro (h | h | h) <;> simp [h]
      · rintro (h | h | h) <;> simp [h]
  | words l => rfl

/-- `lockNodes2` takes free locks, or changes nothing. -/
theorem lockNodes2_takes {st st' : St} {node parent : Nat} {ng pg : Int} {b : Bool} (h : st.lockNodes2 node ng parent pg = (b, st')) :
    (b = true ∧ st' = { st with locks := bumpLocks st.locks (Unlock.two node parent).list } ∧ allEven st (Unlock.two node parent).list) ∨
    (b = false ∧ st' = st) := by
  rcases lockNodes2_spec st node ng parent pg with ⟨h1, h2, h3, h4, h5⟩ | ⟨_, h5⟩
  · rw [h5] at h
    cases h
    refine .inl ⟨rfl, rfl, ?_⟩
    intro m hm
    simp only [Unlock.list, lockList2] at hm
    split at hm
    · obtain rfl := List.mem_singleton.1 hm; omega
    · rename_i hp
      rcases List.mem_cons.1 hm with rfl | hm
      · omega
      · obtain rfl := List.mem_singleton.1 hm
        by_cases hs : sameLock m node
        · rw [gen_congr hs]; omega
        · rw [h3 hp hs]; exact h4 hp
  · rw [h5] at h
    cases h
    exact .inr ⟨rfl, rfl⟩

theorem lockNodes3_takes {st st' : St} {child node parent : Nat} {cg ng pg : Int} {b : Bool}
    (h : st.lockNodes3 child cg node ng parent pg = (b, st')) :
    (b = true ∧ st' = { st with locks := bumpLocks st.locks (Unlock.three child node parent).norm.list } ∧
      allEven st (Unlock.three child node parent).norm.list) ∨ (b = false ∧ st' = st) := by
  by_cases hp : parent = 0
  · have e : (Unlock.three child node parent).norm = .two child node := by simp [Unlock.norm, hp]
    rw [e]
    unfold St.lockNodes3 at h
    rw [if_pos hp] at h
    exact lockNodes2_takes h
  · have e : (Unlock.three child node parent).norm = .three child node parent := by simp [Unlock.norm, hp]
    rw [e]
    rcases lockNodes3_spec st child cg node ng parent pg (fun h => absurd h hp) with ⟨h1, h2, h3, h4, h5, h6, h7⟩ | ⟨_, h7⟩
    · rw [h7] at h
      cases h
      refine .inl ⟨rfl, rfl, ?_⟩
      intro m hm
      simp only [Unlock.list, lockList3, if_neg hp, List.mem_cons, List.not_mem_nil, or_false] at hm
      have hnode : st.gen node % 2 = 0 := by
        by_cases hs : sameLock node child
        · rw [gen_congr hs]; omega
        · rw [h4 hs]; exact h3
      rcases hm with rfl | rfl | rfl
      · omega
      · exact hnode
      · by_cases hs : sameLock m child
        · rw [gen_congr hs]; omega
        · by_cases hs2 : sameLock m node
          · rw [gen_congr hs2]; exact hnode
          · rw [h5 hp hs hs2]; exact h6 hp
    · rw [h7] at h
      cases h
      exact .inr ⟨rfl, rfl⟩

/-! ## Steps before an operation is prepared -/

/-- An operation about to lock will hold the locks of a node and its parent. -/
def LockKind : Proc → Prop
  | .upd (.lock _ op) => op.unl = .two op.node op.parent
  | .del (.lock cur) => cur.op.unl = .two cur.op.node cur.op.parent
  | .updB op _ cm => cm.Unl op.unl
  | .delB cur cm => cm.Unl cur.op.unl
  | _ => True

/-- What a step of an operation which is not prepared yet does to the locks: `p` is what the operation does afterwards. -/
def Takes (st st' : St) (p : Proc) : Prop :=
  (st' = st ∧ p.unl = .none) ∨
  (st' = { st with locks := bumpLocks st.locks p.unl.norm.list } ∧ allEven st p.unl.norm.list ∧ p.unl ≠ .root) ∨
  (st.rootLock = 0 ∧ st' = { st with rootLock := 1 } ∧ p.unl = .root)

theorem childrenU_locks {m : Mem} {op : UpdOp} {data : Slice} {ph : UPh} (h : childrenU m op data = .ok ph) :
    LockKind (.upd ph) ∧ (Proc.upd ph).unl = .none := by
  unfold childrenU at h
  obtain ⟨k, _, h⟩ := bind_ok h
  simp only at h
  split at h
  · obtain ⟨a, _, h⟩ := bind_ok h
    split at h
    · cases h; exact ⟨rfl, rfl⟩
    · split at h <;> (cases h; exact ⟨by first | rfl | trivial, rfl⟩)
  · obtain ⟨ws, _, h⟩ := bind_ok h
    split at h
    · split at h <;> (cases h; exact ⟨by first | rfl | trivial, rfl⟩)
    · cases h; exact ⟨rfl, rfl⟩

theorem bodyU_locks {st : St} {op : UpdOp} {ph : UPh} (h : bodyU st op = .ok ph) : LockKind (.upd ph) ∧ (Proc.upd ph).unl = .none := by
  unfold bodyU at h
  obtain ⟨d, _, h⟩ := bind_ok h
  split at h
  · obtain ⟨⟨pfx, slots⟩, _, h⟩ := bind_ok h
    obtain ⟨r, _, h⟩ := bind_ok h
    cases r with
    | some i =>
      obtain ⟨k, _, h⟩ := bind_ok h
      cases h; exact ⟨rfl, rfl⟩
    | none =>
      obtain ⟨d', _, h⟩ := bind_ok h
      exact childrenU_locks h
  · exact childrenU_locks h

theorem stepU_locks {st st' : St} {ph ph' : UPh} (hk : LockKind (.upd ph)) (h1 : ∀ f op, ph ≠ .held f op) (h2 : ∀ r tl, ph ≠ .tail r tl)
    (h : stepU st ph = .ok (ph', st')) : LockKind (.upd ph') ∧ Takes st st' (.upd ph') := by
  cases ph with
  | start key =>
    simp only [stepU] at h
    split at h <;> (cases h; exact ⟨trivial, .inl ⟨rfl, rfl⟩⟩)
  | root key root =>
    simp only [stepU, St.lockLeafRoot] at h
    by_cases hr : st.rootLock = 0
    · rw [if_pos hr] at h
      by_cases he : st.root = root
      · rw [if_pos he] at h
        simp only at h
        obtain ⟨k, _, h⟩ := bind_ok h
        split at h
        · cases h; exact ⟨trivial, .inr (.inr ⟨hr, rfl, rfl⟩)⟩
        · split at h <;> (cases h; exact ⟨trivial, .inr (.inr ⟨hr, rfl, rfl⟩)⟩)
      · rw [if_neg he] at h
        cases h; exact ⟨trivial, .inl ⟨rfl, rfl⟩⟩
    · rw [if_neg hr] at h
      cases h; exact ⟨trivial, .inl ⟨rfl, rfl⟩⟩
  | gen op =>
    simp only [stepU] at h
    obtain ⟨g, _, h⟩ := bind_ok h
    cases h; exact ⟨trivial, .inl ⟨rfl, rfl⟩⟩
  | ptr op =>
    simp only [stepU] at h
    split at h <;> (cases h; exact ⟨trivial, .inl ⟨rfl, rfl⟩⟩)
  | par op =>
    simp only [stepU] at h
    split at h
    · cases h; exact ⟨trivial, .inl ⟨rfl, rfl⟩⟩
    · obtain ⟨g, _, h⟩ := bind_ok h
      split at h <;> (cases h; exact ⟨trivial, .inl ⟨rfl, rfl⟩⟩)
  | body op =>
    simp only [stepU] at h
    obtain ⟨ph1, hb, h⟩ := bind_ok h
    cases h
    have := bodyU_locks hb
    exact ⟨this.1, .inl ⟨rfl, this.2⟩⟩
  | lock found op =>
    simp only [stepU] at h
    have hk : op.unl = .two op.node op.parent := hk
    cases hl : st.lockNodes2 op.node op.nodeGen op.parent op.parentGen with
    | mk b st1 =>
      rw [hl] at h
      rcases lockNodes2_takes hl with ⟨rfl, rfl, h3⟩ | ⟨rfl, rfl⟩
      · cases h
        refine ⟨trivial, .inr (.inl ⟨?_, ?_, ?_⟩)⟩
        · simp only [Proc.unl, hk, Unlock.norm]
        · simp only [Proc.unl, hk, Unlock.norm]; exact h3
        · simp [Proc.unl, hk]
      · cases h; exact ⟨trivial, .inl ⟨rfl, rfl⟩⟩
  | held f op => exact absurd rfl (h1 f op)
  | tail r tl => exact absurd rfl (h2 r tl)

theorem childrenD_locks {m : Mem} {cur : DelCur} {count plen : Nat} {data : Slice} {ph : DPh} (h : childrenD m cur count plen data = .ok ph) :
    LockKind (.del ph) ∧ (Proc.del ph).unl = .none := by
  unfold childrenD at h
  simp only at h
  split at h
  · cases h; exact ⟨trivial, rfl⟩
  · obtain ⟨k, _, h⟩ := bind_ok h
    split at h
    · obtain ⟨a, _, h⟩ := bind_ok h
      split at h
      · cases h; exact ⟨trivial, rfl⟩
      · split at h <;> (cases h; exact ⟨trivial, rfl⟩)
    · obtain ⟨ws, _, h⟩ := bind_ok h
      split at h
      · split at h
        · split at h
          · cases h; exact ⟨trivial, rfl⟩
          · cases h; exact ⟨rfl, rfl⟩
        · cases h; exact ⟨trivial, rfl⟩
      · cases h; exact ⟨trivial, rfl⟩

theorem stepD_locks {st st' : St} {ph ph' : DPh} (hk : LockKind (.del ph)) (h1 : ∀ cur, ph ≠ .held cur) (h2 : ∀ r tl, ph ≠ .tail r tl)
    (h : stepD st ph = .ok (ph', st')) : LockKind (.del ph') ∧ Takes st st' (.del ph') := by
  cases ph with
  | start key =>
    simp only [stepD] at h
    split at h
    · cases h; exact ⟨trivial, .inl ⟨rfl, rfl⟩⟩
    · split at h
      · obtain ⟨k, _, h⟩ := bind_ok h
        split at h <;> (cases h; exact ⟨trivial, .inl ⟨rfl, rfl⟩⟩)
      · cases h; exact ⟨trivial, .inl ⟨rfl, rfl⟩⟩
  | root key root =>
    simp only [stepD, St.lockLeafRoot] at h
    by_cases hr : st.rootLock = 0
    · rw [if_pos hr] at h
      by_cases he : st.root = root
      · rw [if_pos he] at h
        cases h; exact ⟨trivial, .inr (.inr ⟨hr, rfl, rfl⟩)⟩
      · rw [if_neg he] at h
        cases h; exact ⟨trivial, .inl ⟨rfl, rfl⟩⟩
    · rw [if_neg hr] at h
      cases h; exact ⟨trivial, .inl ⟨rfl, rfl⟩⟩
  | gen cur =>
    simp only [stepD] at h
    obtain ⟨g, _, h⟩ := bind_ok h
    cases h; exact ⟨trivial, .inl ⟨rfl, rfl⟩⟩
  | ptr cur =>
    simp only [stepD] at h
    split at h <;> (cases h; exact ⟨trivial, .inl ⟨rfl, rfl⟩⟩)
  | par cur =>
    simp only [stepD] at h
    split at h
    · cases h; exact ⟨trivial, .inl ⟨rfl, rfl⟩⟩
    · obtain ⟨g, _, h⟩ := bind_ok h
      split at h <;> (cases h; exact ⟨trivial, .inl ⟨rfl, rfl⟩⟩)
  | body cur =>
    simp only [stepD] at h
    obtain ⟨ph1, hb, h⟩ := bind_ok h
    cases h
    unfold bodyD at hb
    obtain ⟨d, _, hb⟩ := bind_ok hb
    obtain ⟨⟨pl, sl, d'⟩, _, hb⟩ := bind_ok hb
    have := childrenD_locks hb
    exact ⟨this.1, .inl ⟨rfl, this.2⟩⟩
  | lock cur =>
    simp only [stepD] at h
    have hk : cur.op.unl = .two cur.op.node cur.op.parent := hk
    cases hl : st.lockNodes2 cur.op.node cur.op.nodeGen cur.op.parent cur.op.parentGen with
    | mk b st1 =>
      rw [hl] at h
      rcases lockNodes2_takes hl with ⟨rfl, rfl, h3⟩ | ⟨rfl, rfl⟩
      · cases h
        refine ⟨trivial, .inr (.inl ⟨?_, ?_, ?_⟩)⟩
        · simp only [Proc.unl, hk, Unlock.norm]
        · simp only [Proc.unl, hk, Unlock.norm]; exact h3
        · simp [Proc.unl, hk]
      · cases h; exact ⟨trivial, .inl ⟨rfl, rfl⟩⟩
  | other cur p plen =>
    simp only [stepD] at h
    split at h
    · obtain ⟨g, _, h⟩ := bind_ok h
      cases h; exact ⟨rfl, .inl ⟨rfl, rfl⟩⟩
    · cases h; exact ⟨trivial, .inl ⟨rfl, rfl⟩⟩
  | cgen cur p other plen =>
    simp only [stepD] at h
    obtain ⟨g, _, h⟩ := bind_ok h
    cases h; exact ⟨trivial, .inl ⟨rfl, rfl⟩⟩
  | cptr cur p other plen =>
    simp only [stepD] at h
    split at h <;> (cases h; exact ⟨trivial, .inl ⟨rfl, rfl⟩⟩)
  | lock3 cur other plen =>
    simp only [stepD] at h
    cases hl : st.lockNodes3 cur.op.child cur.op.childGen cur.op.node cur.op.nodeGen cur.op.parent cur.op.parentGen with
    | mk b st1 =>
      rw [hl] at h
      rcases lockNodes3_takes hl with ⟨rfl, rfl, h3⟩ | ⟨rfl, rfl⟩
      · simp only at h
        obtain ⟨⟨pfx, sl⟩, _, h⟩ := bind_ok h
        obtain ⟨d, _, h⟩ := bind_ok h
        obtain ⟨⟨pfx2, sl2⟩, _, h⟩ := bind_ok h
        cases h
        refine ⟨trivial, .inr (.inl ⟨rfl, h3, ?_⟩)⟩
        simp [Proc.unl, DelOp.unl]
      · cases h; exact ⟨trivial, .inl ⟨rfl, rfl⟩⟩
  | miss key => cases h; exact ⟨trivial, .inl ⟨rfl, rfl⟩⟩
  | held cur => exact absurd rfl (h1 cur)
  | tail r tl => exact absurd rfl (h2 r tl)

/-! ## All executions -/

/-- The locks held by an allocator. -/
def Sys.holding (s : Sys) (a : Nat) : Unlock := (s.proc a).unl.norm

/-- No delete that merges a node with its child is aborted such that delete.go:344 releases other locks than those taken: without a parent,
`unlockNodes3` gets 0 for the child and unlocks the lock word (0,0), which is only harmless if it is shared with node or child, or free (then it
panics). -/
def TidyAbort (s : Sys) (act : Act) : Prop :=
  (∀ a cur, act = .abort a → s.proc a = .del (.held cur) → cur.op.kind = .replaceNodeWithNode →
    cur.op.child ≠ 0 ∧ (cur.op.parent = 0 → cur.op.node ≠ 0 ∧ (sameLock 0 cur.op.node ∨ sameLock 0 cur.op.child ∨ s.st.gen 0 % 2 = 0))) ∧
  (∀ a cur, act = .quit a → s.proc a = .del (.held cur) → cur.op.kind = .replaceNodeWithNode →
    cur.op.child ≠ 0 ∧ (cur.op.parent = 0 → cur.op.node ≠ 0 ∧ (sameLock 0 cur.op.node ∨ sameLock 0 cur.op.child)))

/-- The invariant. -/
structure Tidy (s : Sys) : Prop where
  locks : LOn s.st s.holding
  kinds : ∀ a, LockKind (s.proc a)
  off : ∀ b, s.st.nalloc ≤ b → s.proc b = .idle

theorem Tidy.new (n : Nat) : Tidy (Sys.new n) where
  locks := by
    refine ⟨fun a n hn => ?_, fun a b _ n hn => ?_, .inl ⟨rfl, fun a => ?_⟩, fun n hn => ?_⟩
    · simp [Sys.holding, Sys.new, Proc.unl, Unlock.norm, Unlock.list] at hn
    · simp [Sys.holding, Sys.new, Proc.unl, Unlock.norm, Unlock.list] at hn
    · simp [Sys.holding, Sys.new, Proc.unl, Unlock.norm]
    · have : (Sys.new n).st.gen n = 0 := rfl
      simp [St.gen, Sys.new, St.new] at hn
  kinds _ := trivial
  off _ _ := rfl

theorem Tidy.restore {s : Sys} (hT : Tidy s) : Tidy ⟨s.st.restore, fun _ => .idle⟩ where
  locks := by
    refine ⟨fun a n hn => ?_, fun a b _ n hn => ?_, .inl ⟨rfl, fun a => ?_⟩, fun n hn => ?_⟩
    · simp [Sys.holding, Proc.unl, Unlock.norm, Unlock.list] at hn
    · simp [Sys.holding, Proc.unl, Unlock.norm, Unlock.list] at hn
    · simp [Sys.holding, Proc.unl, Unlock.norm]
    · simp [St.gen, St.restore] at hn
  kinds _ := trivial
  off _ _ := rfl

variable {s : Sys} {a : Nat}

theorem holding_set (s : Sys) (a : Nat) (st : St) (p : Proc) (b : Nat) :
    (s.set a st p).holding b = if b = a then p.unl.norm else s.holding b := by
  simp only [Sys.holding, Sys.set, upd]
  split <;> rfl

theorem proc_set_ne (s : Sys) (st : St) (p : Proc) {a b : Nat} (h : b ≠ a) : (s.set a st p).proc b = s.proc b := upd_of_ne _ _ h

theorem holding_ne (s : Sys) (st : St) (p : Proc) {a b : Nat} (h : b ≠ a) : (s.set a st p).holding b = s.holding b := by
  rw [holding_set, if_neg h]

theorem holding_self (s : Sys) (a : Nat) (st : St) (p : Proc) : (s.set a st p).holding a = p.unl.norm := by
  rw [holding_set, if_pos rfl]

/-- The rest of the invariant after a step of allocator `a`. -/
theorem Tidy.of (hT : Tidy s) {st' : St} {p : Proc} (hl : LOn st' (s.set a st' p).holding) (hk : LockKind p) (hn : st'.nalloc = s.st.nalloc)
    (ha : p = .idle ∨ a < s.st.nalloc) : Tidy (s.set a st' p) where
  locks := hl
  kinds b := by
    by_cases hb : b = a
    · subst hb; simp only [Sys.set, upd_same]; exact hk
    · rw [proc_set_ne s st' p hb]; exact hT.kinds b
  off b hb := by
    have hb' : s.st.nalloc ≤ b := by rw [← hn]; exact hb
    by_cases e : b = a
    · subst e
      rcases ha with rfl | ha
      · simp only [Sys.set, upd_same]
      · omega
    · rw [proc_set_ne s st' p e]; exact hT.off b hb'

/-- A step that changes no lock. -/
theorem Tidy.same (hT : Tidy s) {st' : St} {p : Proc} (hc : st'.locks = s.st.locks ∧ st'.rootLock = s.st.rootLock ∧ st'.nalloc = s.st.nalloc)
    (hu : p.unl.norm = s.holding a) (hk : LockKind p) (ha : p = .idle ∨ a < s.st.nalloc) : Tidy (s.set a st' p) := by
  refine hT.of (hT.locks.same hc.1 hc.2.1 ?_) hk hc.2.2 ha
  intro b
  rw [holding_set]
  split
  · rename_i h; rw [h]; exact hu
  · rfl

theorem Tidy.lt (hT : Tidy s) (h : s.proc a ≠ .idle) : a < s.st.nalloc := by
  apply Classical.byContradiction
  intro hn
  exact h (hT.off a (by omega))

theorem Tidy.takes (hT : Tidy s) {st' : St} {p : Proc} (h : Takes s.st st' p) (hk : LockKind p) (hn : (s.proc a).unl = .none)
    (ha : s.proc a ≠ .idle) : Tidy (s.set a st' p) := by
  have hh : s.holding a = .none := by unfold Sys.holding; rw [hn]; rfl
  have hu : ∀ b, b ≠ a → (s.set a st' p).holding b = s.holding b := fun b hb => holding_ne s st' p hb
  rcases h with ⟨rfl, h1⟩ | ⟨rfl, h1, h2⟩ | ⟨h1, rfl, h2⟩
  · exact hT.same ⟨rfl, rfl, rfl⟩ (by rw [h1, hh]; rfl) hk (.inr (hT.lt ha))
  · refine hT.of (hT.locks.acquire (a := a) rfl rfl h1 hu hh (by rw [holding_self]) ?_) hk rfl (.inr (hT.lt ha))
    rw [holding_self]
    exact fun e => h2 (norm_root.1 e)
  · refine hT.of (hT.locks.acquireRoot (a := a) rfl h1 rfl hu hh ?_) hk rfl (.inr (hT.lt ha))
    rw [holding_self, h2]; rfl

/-- Releasing the locks. -/
theorem Tidy.done (hT : Tidy s) {st' : St} (hl : st'.locks = bumpLocks s.st.locks (s.holding a).list)
    (hr : st'.rootLock = s.st.rootLock - (s.holding a).rootN) (hn : st'.nalloc = s.st.nalloc) : Tidy (s.set a st' .idle) := by
  refine hT.of (hT.locks.release (a := a) hl hr (fun b hb => holding_ne s st' _ hb) ?_) trivial hn (.inl rfl)
  rw [holding_self]; rfl

theorem Tidy.unlock (hT : Tidy s) {u : Unlock} (hu : (s.proc a).unl = u) :
    s.st.unlockBy u = .ok { s.st with locks := bumpLocks s.st.locks (s.holding a).list, rootLock := s.st.rootLock - (s.holding a).rootN } := by
  subst hu
  exact unlockNorm_spec (hT.locks.odd a)

/-- `st'` is the state of `s` after the locks of allocator `a` are released and its operation has ended. -/
def Freed (s : Sys) (a : Nat) (st' : St) : Prop :=
  st' = { s.st with
    locks := bumpLocks s.st.locks (s.holding a).list
    rootLock := s.st.rootLock - (s.holding a).rootN
    resv := upd s.st.resv a maxUint64 }

theorem Tidy.runTail (hT : Tidy s) {tl : Tail} (hp : (s.proc a).unl = tl.unl) {st' : St} (h : s.st.runTail a tl = .ok st') :
    Tidy (s.set a st' .idle) := by
  unfold St.runTail at h
  rw [hT.unlock hp] at h
  obtain ⟨st1, h1, h⟩ := bind_ok h
  cases h1
  simp only at h
  split at h
  · cases h
    exact hT.done rfl rfl rfl
  · obtain ⟨st2, h2, h⟩ := bind_ok h
    cases h
    have hc := recycle_ctl h2
    exact hT.done hc.locks hc.rootLock hc.nalloc

theorem Tidy.abortU (hT : Tidy s) {found : Bool} {op : UpdOp} (hp : s.proc a = .upd (.held found op)) :
    ∃ st', Radix.abortU s.st a op = .ok st' ∧ Freed s a st' := by
  have hu := hT.unlock (a := a) (u := op.unl) (by rw [hp]; rfl)
  unfold Radix.abortU
  cases hk : op.kind
  case replaceEmptyRootWithLeaf | replaceLeafRootWithNode | rootLeafUpdate =>
    have e : op.unl = .root := by simp [UpdOp.unl, hk]
    rw [e] at hu
    simp only [St.unlockBy, Except.ok.injEq] at hu
    refine ⟨_, rfl, ?_⟩
    rw [hu]; rfl
  all_goals
    have e : op.unl = .two op.node op.parent := by simp [UpdOp.unl, hk]
    rw [e] at hu
    simp only [St.unlockBy] at hu
    exact ⟨_, by (rw [hu]; rfl), rfl⟩

theorem Tidy.abortD (hT : Tidy s) {cur : DelCur} (hp : s.proc a = .del (.held cur)) (hg : TidyAbort s (.abort a)) {st' : St}
    (h : Radix.abortD s.st a cur.op = .ok st') : Freed s a st' := by
  have hu := hT.unlock (a := a) (u := cur.op.unl) (by rw [hp]; rfl)
  have hodd := hT.locks.odd a
  unfold Radix.abortD at h
  cases hk : cur.op.kind <;> rw [hk] at h
  case deleteRoot =>
    have e : cur.op.unl = .root := by simp [DelOp.unl, hk]
    rw [e] at hu
    simp only [St.unlockBy, Except.ok.injEq] at hu
    cases h
    rw [hu]; rfl
  case deleteLeaf | replaceNodeWithLeaf =>
    have e : cur.op.unl = .two cur.op.node cur.op.parent := by simp [DelOp.unl, hk]
    rw [e] at hu
    simp only [St.unlockBy] at hu
    simp only [hu] at h
    cases h
    rfl
  case replaceNodeWithNode =>
    obtain ⟨hchild, hpar⟩ := hg.1 a cur rfl hp hk
    have e : s.holding a = (Unlock.three cur.op.child cur.op.node cur.op.parent).norm := by
      simp [Sys.holding, hp, Proc.unl, DelOp.unl, hk]
    unfold Freed
    simp only at h
    by_cases hp0 : cur.op.parent = 0
    · obtain ⟨hn0, hs⟩ := hpar hp0
      have e2 : (s.holding a).list = [cur.op.child, cur.op.node] := by
        simp [e, Unlock.norm, hp0, Unlock.list, lockList2, hn0]
      have e3 : (s.holding a).rootN = 0 := by simp [e, Unlock.norm, hp0, Unlock.rootN]
      rw [e2] at hodd ⊢
      rw [e3]
      rw [hp0, unlockNodes3_zero hchild hodd] at h
      by_cases hd : (lockDiffer 0 cur.op.child && lockDiffer 0 cur.op.node) = true
      · exfalso
        rw [if_pos hd] at h
        rw [Bool.and_eq_true, lockDiffer_iff, lockDiffer_iff] at hd
        have h0 : s.st.gen 0 % 2 = 0 := by
          rcases hs with h | h | h
          · exact absurd h hd.2
          · exact absurd h hd.1
          · exact h
        have hgen : ({ s.st with locks := bumpLocks s.st.locks [cur.op.child, cur.op.node] } : St).gen 0 = s.st.gen 0 := by
          apply bump_gen_other
          rintro ⟨m, hm, hs⟩
          simp only [List.mem_cons, List.not_mem_nil, or_false] at hm
          rcases hm with rfl | rfl
          · exact hd.1 (sameLock_comm.1 hs)
          · exact hd.2 (sameLock_comm.1 hs)
        unfold St.unlockNode at h
        rw [hgen, if_neg (by omega)] at h
        cases h
      · rw [if_neg hd] at h
        cases h
        simp [St.endOp]
    · have e2 : (s.holding a).list = [cur.op.child, cur.op.node, cur.op.parent] := by
        simp [e, Unlock.norm, hp0, Unlock.list, lockList3]
      have e3 : (s.holding a).rootN = 0 := by simp [e, Unlock.norm, hp0, Unlock.rootN]
      rw [e2] at hodd ⊢
      rw [e3]
      have hun := unlockNodes3_spec (st := s.st) (child := cur.op.parent) (node := cur.op.node) hchild (by
        intro n hn
        apply hodd
        simp only [List.mem_cons, List.not_mem_nil, or_false] at hn ⊢
        rcases hn with h | h | h <;> simp [h])
      rw [hun] at h
      cases h
      have ep : bumpLocks s.st.locks [cur.op.parent, cur.op.node, cur.op.child] =
          bumpLocks s.st.locks [cur.op.child, cur.op.node, cur.op.parent] := by
        apply bumpLocks_perm
        intro n
        simp only [List.mem_cons, List.not_mem_nil, or_false]
        constructor
        · rintro (h | h | h) <;> simp [h]
        · rintro (h | h | h) <;> simp [h]
      simp [St.endOp, ep]
  all_goals
    have e : s.holding a = .none := by simp [Sys.holding, hp, Proc.unl, DelOp.unl, hk, Unlock.norm]
    unfold Freed
    cases h
    rw [e]
    simp [Unlock.list, Unlock.rootN, bumpLocks_nil, St.endOp]

/-- One of the locks is released. -/
theorem Tidy.unlockOne (hT : Tidy s) {u u' : Unlock} {p' : Proc} (hp : (s.proc a).unl = u) (hp' : p'.unl = u') {st' : St}
    (h : s.st.unlockOne u = some (.ok (u', st'))) (hk : LockKind p') (hi : s.proc a ≠ .idle) : Tidy (s.set a st' p') := by
  have hh : s.holding a = u.norm := by unfold Sys.holding; rw [hp]
  have hu : ∀ b, b ≠ a → (s.set a st' p').holding b = s.holding b := fun b hb => holding_ne s st' p' hb
  rcases unlockOne_ok h with ⟨rfl, rfl, rfl⟩ | ⟨n, l, hpl, rfl, hne, hg, rfl⟩
  · refine hT.of (hT.locks.releaseRoot (a := a) rfl rfl hu (by rw [hh]; rfl) (by rw [holding_self, hp']; rfl)) hk rfl (.inr (hT.lt hi))
  · have hmem : ∀ m, m ∈ n :: l ↔ m ∈ (s.holding a).list := by rw [hh, ← hpl]; exact plan_norm hne
    have hn := (hmem n).1 (by simp)
    have hl : (s.set a (s.st.setGen n (s.st.gen n + 1)) p').holding a = .words (l.filter fun m => lockDiffer m n) := by
      rw [holding_self, hp']; rfl
    refine hT.of (hT.locks.releaseOne (a := a) (n := n) ?_ rfl hu hn ?_ ?_ ?_ ?_) hk rfl (.inr (hT.lt hi))
    · have e1 := unlockNode_spec (st := s.st) (hT.locks.odd a n hn)
      unfold St.unlockNode at e1
      rw [if_pos hg] at e1
      injection e1 with e1
      rw [e1]
    · intro m hm
      rw [hl] at hm
      have hm := List.mem_filter.1 hm
      exact ⟨(hmem m).1 (List.mem_cons_of_mem _ hm.1), (lockDiffer_iff _ _).1 hm.2⟩
    · intro m hm
      rw [hl]
      by_cases hs : sameLock m n
      · exact .inl hs
      · right
        rcases List.mem_cons.1 ((hmem m).2 hm) with rfl | hm'
        · exact absurd (sameLock_refl _) hs
        · exact List.mem_filter.2 ⟨hm', (lockDiffer_iff _ _).2 hs⟩
    · rw [hh]; exact fun e => hne (norm_root.1 e)
    · rw [hl]; simp

/-- `Abort` is called. -/
theorem Tidy.quitD (hT : Tidy s) {cur : DelCur} (hp : s.proc a = .del (.held cur)) (hg : TidyAbort s (.quit a)) :
    Tidy (s.set a s.st (.del (.tail false { unl := cur.op.abortUnl }))) := by
  have hi : s.proc a ≠ .idle := by rw [hp]; simp
  have hh : s.holding a = cur.op.unl.norm := by unfold Sys.holding; rw [hp]; rfl
  by_cases hk : cur.op.kind = .replaceNodeWithNode
  · obtain ⟨hchild, hpar⟩ := hg.2 a cur rfl hp hk
    have e1 : (s.set a s.st (.del (.tail false { unl := cur.op.abortUnl }))).holding a = .three cur.op.parent cur.op.node cur.op.child := by
      rw [holding_self]
      simp [Proc.unl, DelOp.abortUnl, hk, Unlock.norm, hchild]
    have e2 : s.holding a = (Unlock.three cur.op.child cur.op.node cur.op.parent).norm := by
      rw [hh]; simp [DelOp.unl, hk]
    have l1 : ∀ m, m ∈ ((s.set a s.st (.del (.tail false { unl := cur.op.abortUnl }))).holding a).list ↔
        m = cur.op.parent ∨ m = cur.op.node ∨ m = cur.op.child := by
      intro m; rw [e1]; simp [Unlock.list, lockList3, hchild]
    have l2 : ∀ m, m ∈ (s.holding a).list ↔ m = cur.op.child ∨ (m = cur.op.node ∧ (cur.op.parent = 0 → cur.op.node ≠ 0)) ∨
        (m = cur.op.parent ∧ cur.op.parent ≠ 0) := by
      intro m; rw [e2]
      by_cases h0 : cur.op.parent = 0
      · have := (hpar h0).1
        simp [Unlock.norm, h0, Unlock.list, lockList2, this]
      · simp [Unlock.norm, h0, Unlock.list, lockList3]
    refine hT.of (hT.locks.rename (a := a) rfl rfl (fun b hb => holding_ne s _ _ hb) ?_ ?_ ?_) trivial rfl (.inr (hT.lt hi))
    · intro m hm
      rcases (l1 m).1 hm with rfl | rfl | rfl
      · by_cases h0 : cur.op.parent = 0
        · rcases (hpar h0).2 with h | h
          · exact ⟨cur.op.node, (l2 _).2 (.inr (.inl ⟨rfl, fun _ => (hpar h0).1⟩)), by rw [h0]; exact sameLock_comm.1 h⟩
          · exact ⟨cur.op.child, (l2 _).2 (.inl rfl), by rw [h0]; exact sameLock_comm.1 h⟩
        · exact ⟨cur.op.parent, (l2 _).2 (.inr (.inr ⟨rfl, h0⟩)), sameLock_refl _⟩
      · exact ⟨cur.op.node, (l2 _).2 (.inr (.inl ⟨rfl, fun h0 => (hpar h0).1⟩)), sameLock_refl _⟩
      · exact ⟨cur.op.child, (l2 _).2 (.inl rfl), sameLock_refl _⟩
    · intro m hm
      refine ⟨m, (l1 m).2 ?_, sameLock_refl _⟩
      rcases (l2 m).1 hm with h | h | h
      · exact .inr (.inr h)
      · exact .inr (.inl h.1)
      · exact .inl h.1
    · rw [e1, e2, norm_root]; simp
  · refine hT.same ⟨rfl, rfl, rfl⟩ ?_ trivial (.inr (hT.lt hi))
    rw [hh]
    cases hkk : cur.op.kind <;> first | exact absurd hkk hk | simp [Proc.unl, DelOp.abortUnl, DelOp.unl, hkk]

/-- Every step preserves the invariant. -/
theorem Tidy.exec (hT : Tidy s) {fetch : Word → Key} {act : Act} (hg : TidyAbort s act) {s' : Sys} {ev : Ev}
    (h : Radix.exec fetch s act = some (.ok (s', ev))) : Tidy s' := by
  cases act with
  | begin a c =>
    simp only [Radix.exec] at h
    split at h
    · rename_i hp
      split at h
      · rename_i ha
        cases h
        exact hT.same ⟨rfl, rfl, rfl⟩ (by simp [Sys.holding, hp, Proc.unl]) trivial (.inr ha)
      · cases h
    · cases h
  | arm a =>
    simp only [Radix.exec] at h
    split at h
    · rename_i e c hp
      cases h
      refine hT.same ⟨rfl, rfl, rfl⟩ ?_ ?_ (.inr (hT.lt (by rw [hp]; simp)))
      · cases c <;> simp [Sys.holding, hp, Proc.unl, Call.start]
      · cases c <;> trivial
    · cases h
  | run a =>
    simp only [Radix.exec] at h
    split at h
    · cases h
    · cases h
    · rename_i ph h1 h2 hp
      injection h with h
      obtain ⟨⟨ph', st'⟩, hs, h⟩ := bind_ok h
      cases h
      have hk := hT.kinds a
      rw [hp] at hk
      obtain ⟨g1, g2⟩ := stepU_locks hk (fun f op e => h1 f op (by rw [e])) (fun r tl e => h2 r tl (by rw [e])) hs
      refine hT.takes g2 g1 ?_ (by rw [hp]; simp)
      rw [hp]
      cases ph <;> first | rfl | exact absurd rfl (h1 _ _) | exact absurd rfl (h2 _ _)
    · cases h
    · cases h
    · cases h
    · rename_i ph h0 h1 h2 hp
      injection h with h
      obtain ⟨⟨ph', st'⟩, hs, h⟩ := bind_ok h
      cases h
      have hk := hT.kinds a
      rw [hp] at hk
      obtain ⟨g1, g2⟩ := stepD_locks hk (fun c e => h1 c (by rw [e])) (fun r tl e => h2 r tl (by rw [e])) hs
      refine hT.takes g2 g1 ?_ (by rw [hp]; simp)
      rw [hp]
      cases ph <;> first | rfl | exact absurd rfl (h1 _) | exact absurd rfl (h2 _ _)
    · cases h
    · rename_i ph _ hp
      injection h with h
      obtain ⟨ph', hs, h⟩ := bind_ok h
      cases h
      exact hT.same ⟨rfl, rfl, rfl⟩ (by simp [Sys.holding, hp, Proc.unl]) trivial (.inr (hT.lt (by rw [hp]; simp)))
    · cases h
  | publish a value =>
    simp only [Radix.exec] at h
    split at h
    · rename_i f op hp
      injection h with h
      obtain ⟨⟨b, tl, st'⟩, hs, h⟩ := bind_ok h
      cases h
      obtain ⟨g1, g2⟩ := publishU_ctl hs
      exact hT.same ⟨g1.locks, g1.rootLock, g1.nalloc⟩ (by simp [Sys.holding, hp, Proc.unl, g2]) trivial (.inr (hT.lt (by rw [hp]; simp)))
    · rename_i cur hp
      injection h with h
      obtain ⟨⟨b, tl, st'⟩, hs, h⟩ := bind_ok h
      cases h
      obtain ⟨g1, g2⟩ := publishD_ctl hs
      exact hT.same ⟨g1.locks, g1.rootLock, g1.nalloc⟩ (by simp [Sys.holding, hp, Proc.unl, g2]) trivial (.inr (hT.lt (by rw [hp]; simp)))
    · cases h
  | build a value =>
    simp only [Radix.exec] at h
    split at h
    · rename_i f op hp
      injection h with h
      obtain ⟨⟨cm, st'⟩, hs, h⟩ := bind_ok h
      cases h
      obtain ⟨g1, g2⟩ := buildU_ctl hs
      exact hT.same ⟨g1.locks, g1.rootLock, g1.nalloc⟩ (by simp [Sys.holding, hp, Proc.unl]) g2 (.inr (hT.lt (by rw [hp]; simp)))
    · rename_i cur hp
      split at h
      · cases h
      injection h with h
      obtain ⟨⟨cm, st'⟩, hs, h⟩ := bind_ok h
      cases h
      obtain ⟨g1, g2⟩ := buildD_ctl hs
      exact hT.same ⟨g1.locks, g1.rootLock, g1.nalloc⟩ (by simp [Sys.holding, hp, Proc.unl]) g2 (.inr (hT.lt (by rw [hp]; simp)))
    · cases h
  | commit a =>
    simp only [Radix.exec] at h
    split at h
    · rename_i op value cm hp
      cases h
      have hk := hT.kinds a
      rw [hp] at hk
      have g1 := commit_ctl s.st cm
      exact hT.same ⟨g1.locks, g1.rootLock, g1.nalloc⟩ (by simp [Sys.holding, hp, Proc.unl, commit_unl hk]) trivial
        (.inr (hT.lt (by rw [hp]; simp)))
    · rename_i cur cm hp
      cases h
      have hk := hT.kinds a
      rw [hp] at hk
      have g1 := commit_ctl s.st cm
      exact hT.same ⟨g1.locks, g1.rootLock, g1.nalloc⟩ (by simp [Sys.holding, hp, Proc.unl, commit_unl hk]) trivial
        (.inr (hT.lt (by rw [hp]; simp)))
    · cases h
  | slip a =>
    obtain ⟨rfl, _, ⟨ph, ph', hp, hs, rfl⟩ | ⟨ph, ph', hp, hs, rfl⟩⟩ := exec_slip_ok h
    · have hk := hT.kinds a
      rw [hp] at hk
      have hi : s.proc a ≠ .idle := by rw [hp]; simp
      rcases slipU_key hs with ⟨_, _, rfl, rfl⟩ | ⟨_, rfl, _, rfl⟩ | ⟨_, rfl, _, _, ⟨_, rfl⟩ | ⟨_, rfl⟩⟩ | ⟨_, _, rfl, rfl⟩ <;>
        exact hT.same ⟨rfl, rfl, rfl⟩ (by simp [Sys.holding, hp, Proc.unl]) (by first | trivial | exact hk) (.inr (hT.lt hi))
    · have hk := hT.kinds a
      rw [hp] at hk
      have hi : s.proc a ≠ .idle := by rw [hp]; simp
      rcases slipD_key hs with ⟨_, _, rfl, rfl⟩ | ⟨_, rfl, _, rfl⟩ | ⟨_, rfl, _, _, ⟨_, rfl⟩ | ⟨_, rfl⟩⟩ | ⟨_, rfl, rfl⟩ |
          ⟨_, _, _, _, rfl, _, rfl⟩ | ⟨_, _, _, rfl, rfl⟩ <;>
        exact hT.same ⟨rfl, rfl, rfl⟩ (by simp [Sys.holding, hp, Proc.unl]) (by first | trivial | exact hk) (.inr (hT.lt hi))
  | unlock a =>
    obtain ⟨rfl, ⟨b, tl, u, st', hp, hs, rfl⟩ | ⟨b, tl, u, st', hp, hs, rfl⟩⟩ := exec_unlock_ok h <;>
      exact hT.unlockOne (by rw [hp]; rfl) rfl hs trivial (by rw [hp]; simp)
  | quit a =>
    simp only [Radix.exec] at h
    split at h
    · rename_i f op hp
      cases h
      refine hT.same ⟨rfl, rfl, rfl⟩ ?_ trivial (.inr (hT.lt (by rw [hp]; simp)))
      cases hkk : op.kind <;> simp [Sys.holding, hp, Proc.unl, UpdOp.abortUnl, UpdOp.unl, hkk]
    · rename_i cur hp
      cases h
      exact hT.quitD hp hg
    · cases h
  | tail a =>
    simp only [Radix.exec] at h
    split at h
    · rename_i r tl hp
      injection h with h
      obtain ⟨st', hs, h⟩ := bind_ok h
      cases h
      exact hT.runTail (by rw [hp]; rfl) hs
    · rename_i r tl hp
      injection h with h
      obtain ⟨st', hs, h⟩ := bind_ok h
      cases h
      exact hT.runTail (by rw [hp]; rfl) hs
    · cases h
  | abort a =>
    simp only [Radix.exec] at h
    split at h
    · rename_i f op hp
      injection h with h
      obtain ⟨st', hs, h⟩ := bind_ok h
      cases h
      obtain ⟨st1, h1, h2⟩ := hT.abortU hp
      rw [h1] at hs
      cases hs
      exact hT.done (by rw [h2]) (by rw [h2]) (by rw [h2])
    · rename_i cur hp
      injection h with h
      obtain ⟨st', hs, h⟩ := bind_ok h
      cases h
      have h2 := hT.abortD hp hg hs
      exact hT.done (by rw [h2]) (by rw [h2]) (by rw [h2])
    · cases h
  | finish a =>
    simp only [Radix.exec] at h
    split at h
    · rename_i k hp
      cases h
      exact hT.same ⟨rfl, rfl, rfl⟩ (by simp [Sys.holding, hp, Proc.unl]) trivial (.inl rfl)
    · rename_i k r hp
      cases h
      exact hT.same ⟨rfl, rfl, rfl⟩ (by simp [Sys.holding, hp, Proc.unl]) trivial (.inl rfl)
    · rename_i hp
      cases h
      exact hT.same ⟨rfl, rfl, rfl⟩ (by simp [Sys.holding, hp, Proc.unl]) trivial (.inl rfl)
    · cases h
  | flush a =>
    simp only [Radix.exec] at h
    split at h
    · rename_i hp
      split at h
      · cases h
        exact hT.same ⟨rfl, rfl, rfl⟩ (by simp [Sys.holding, hp, Proc.unl]) trivial (.inl rfl)
      · cases h
    · cases h
  | block =>
    simp only [Radix.exec] at h
    injection h with h
    obtain ⟨st', hs, h⟩ := bind_ok h
    cases h
    have hc := blockStep_ctl hs
    exact ⟨hT.locks.same hc.locks hc.rootLock (fun _ => rfl), hT.kinds, fun b hb => hT.off b (by rw [← hc.nalloc]; exact hb)⟩

theorem Tidy.abortD_ok (hT : Tidy s) {cur : DelCur} (hp : s.proc a = .del (.held cur))
    (hk : cur.op.kind = .replaceNodeWithNode → cur.op.parent ≠ 0 ∧ cur.op.child ≠ 0) :
    ∃ st', Radix.abortD s.st a cur.op = .ok st' ∧ Freed s a st' := by
  suffices h : ∃ st', Radix.abortD s.st a cur.op = .ok st' by
    obtain ⟨st', h⟩ := h
    refine ⟨st', h, hT.abortD hp ⟨?_, fun _ _ e => by cases e⟩ h⟩
    intro b c e hc hkind
    cases e
    rw [hp] at hc
    cases hc
    exact ⟨(hk hkind).2, fun h0 => absurd h0 (hk hkind).1⟩
  have hu := hT.unlock (a := a) (u := cur.op.unl) (by rw [hp]; rfl)
  have hodd := hT.locks.odd a
  unfold Radix.abortD
  cases hkk : cur.op.kind
  case deleteRoot => exact ⟨_, rfl⟩
  case deleteLeaf | replaceNodeWithLeaf =>
    have e : cur.op.unl = .two cur.op.node cur.op.parent := by simp [DelOp.unl, hkk]
    rw [e] at hu
    simp only [St.unlockBy] at hu
    exact ⟨_, by (rw [hu]; rfl)⟩
  case replaceNodeWithNode =>
    obtain ⟨h1, h2⟩ := hk hkk
    have e2 : (s.holding a).list = [cur.op.child, cur.op.node, cur.op.parent] := by
      simp [Sys.holding, hp, Proc.unl, DelOp.unl, hkk, Unlock.norm, h1, Unlock.list, lockList3]
    rw [e2] at hodd
    have hun := unlockNodes3_spec (st := s.st) (child := cur.op.parent) (node := cur.op.node) h2 (by
      intro n hn
      apply hodd
      simp only [List.mem_cons, List.not_mem_nil, or_false] at hn ⊢
      rcases hn with h | h | h <;> simp [h])
    exact ⟨_, by (rw [hun]; rfl)⟩
  all_goals exact ⟨_, rfl⟩

/-- Every execution without such an abort keeps the locks in order. -/
theorem Run.tidyOf {env : Env} {G : Sys → Act → Prop} (hG : ∀ s σ act, Run env G s σ → G s act → TidyAbort s act) {s : Sys} {σ : Spec}
    (h : Run env G s σ) : Tidy s := by
  induction h with
  | init n => exact .new n
  | reload _ _ ih => exact ih.restore
  | step hr _ hg he ih => exact ih.exec (hG _ _ _ hr hg) he

theorem Run.tidy {env : Env} {s : Sys} {σ : Spec} (h : Run env TidyAbort s σ) : Tidy s := h.tidyOf fun _ _ _ _ h => h

/-- Calm executions contain no such abort. -/
theorem Calm.tidyAbort {env : Env} {s : Sys} {σ : Spec} {t : T} {seen : Nat → T → Prop} (hI : Inv env s σ t seen) {act : Act}
    (hc : Calm s act) : TidyAbort s act := by
  have key : ∀ a cur, s.proc a = .del (.held cur) → cur.op.kind = .replaceNodeWithNode → cur.op.child ≠ 0 ∧ cur.op.node ≠ 0 := by
    intro a cur hp hk
    have hP := hI.proc a
    rw [hp] at hP
    obtain ⟨_, ⟨h1, _⟩ | ⟨h1, _⟩ | ⟨_, q, pfx, k, k2, lk, lv, pfx2, big2, kids, h2, _⟩ | ⟨h1, _⟩⟩ := hP
    · rw [hk] at h1; cases h1
    · rw [hk] at h1; rcases h1 with h1 | h1 <;> cases h1
    · have g := h2.at'.inBlocks hI.mem.core.inb
      have g2 := g.2 k2
      rw [ch2_snd] at g2
      have := g2.1.1
      have := g.1.1
      exact ⟨by omega, by omega⟩
    · rw [hk] at h1; cases h1
  constructor
  · rintro a cur rfl hp hk
    simp only [Calm, hp] at hc
    exact ⟨(key a cur hp hk).1, fun h0 => ⟨(key a cur hp hk).2, hc hk h0⟩⟩
  · rintro a cur rfl hp hk
    simp only [Calm, hp] at hc
    exact ⟨(key a cur hp hk).1, fun h0 => ⟨(key a cur hp hk).2, hc hk h0⟩⟩

theorem Run.calm_tidy {env : Env} {s : Sys} {σ : Spec} (h : Run env Calm s σ) : Run env TidyAbort s σ := by
  induction h with
  | init n => exact .init n
  | reload _ hs ih => exact .reload ih hs
  | step hr ha hg he ih =>
    obtain ⟨t, seen, hI⟩ := hr.inv
    exact .step ih ha (Calm.tidyAbort hI hg) he

end Radix
