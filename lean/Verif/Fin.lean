import Verif.Build
/-!
# Effect of the two steps of `Finalize`
-/
namespace Radix
open T

/-- Fields relevant for the memory representation agree. -/
structure SameMem (s s' : St) : Prop where
  mem : s'.mem = s.mem
  root : s'.root = s.root
  nalloc : s'.nalloc = s.nalloc
  baNext : s'.baNext = s.baNext
  baReady : s'.baReady = s.baReady
  al : ∀ b, (s'.allocs b).recycler = (s.allocs b).recycler ∧ (s'.allocs b).nextFree = (s.allocs b).nextFree ∧
    (s'.allocs b).offset = (s.allocs b).offset ∧ (s'.allocs b).block = (s.allocs b).block

theorem SameMem.freeP {s s' : St} (h : SameMem s s') (p : Nat → Bool) (x : Nat) : freeP p s' x = freeP p s x := by
  apply freeP_congr p h.nalloc h.baNext
  intro a _ x
  obtain ⟨h1, h2, h3, _⟩ := h.al a
  unfold allocCover bumpCover
  rw [h1, h2, h3]

theorem SameMem.allocOK {s s' : St} (h : SameMem s s') {n b : Nat} (hb : AllocOK n (s.allocs b)) :
    AllocOK n (s'.allocs b) := by
  obtain ⟨h1, h2, h3, h4⟩ := h.al b
  refine ⟨by rw [h2]; exact hb.mod8, by rw [h2, h3, h4]; exact hb.bump, ?_⟩
  rw [h1]
  exact hb.items

theorem SameMem.nblocks {s s' : St} (h : SameMem s s') : s'.nblocks = s.nblocks := by
  unfold St.nblocks; rw [h.baNext, h.baReady]

theorem SameMem.core {P s s' t N} (h : SameMem s s') (hc : CoreN P s t N) : CoreN P s' t N where
  root := h.root.trans hc.root
  repr := by rw [h.mem]; exact hc.repr
  wf := hc.wf
  inb := by rw [h.baNext]; exact hc.inb
  nb := by rw [h.nblocks]; exact hc.nb
  sep x := by unfold freeCover; rw [h.freeP]; exact hc.sep x
  ok b hb := by rw [h.baNext]; exact h.allocOK (hc.ok b (by rw [← h.nalloc]; exact hb))
  zero := by rw [h.mem]; exact hc.zero
  n0 := hc.n0

theorem SameMem.trans {s1 s2 s3 : St} (h : SameMem s1 s2) (h' : SameMem s2 s3) : SameMem s1 s3 where
  mem := h'.mem.trans h.mem
  root := h'.root.trans h.root
  nalloc := h'.nalloc.trans h.nalloc
  baNext := h'.baNext.trans h.baNext
  baReady := h'.baReady.trans h.baReady
  al b := by
    obtain ⟨a1, a2, a3, a4⟩ := h.al b
    obtain ⟨b1, b2, b3, b4⟩ := h'.al b
    exact ⟨b1.trans a1, b2.trans a2, b3.trans a3, b4.trans a4⟩

theorem SameMem.refl (s : St) : SameMem s s := ⟨rfl, rfl, rfl, rfl, rfl, fun _ => ⟨rfl, rfl, rfl, rfl⟩⟩

theorem SameMem.locks (s : St) (l) : SameMem s { s with locks := l } := ⟨rfl, rfl, rfl, rfl, rfl, fun _ => ⟨rfl, rfl, rfl, rfl⟩⟩

theorem SameMem.endOp (s : St) (a) : SameMem s (s.endOp a) := ⟨rfl, rfl, rfl, rfl, rfl, fun _ => ⟨rfl, rfl, rfl, rfl⟩⟩

theorem SameMem.startOp (s : St) (a) : SameMem s (s.startOp a) := ⟨rfl, rfl, rfl, rfl, rfl, fun _ => ⟨rfl, rfl, rfl, rfl⟩⟩

theorem SameMem.unlockRoot (s : St) : SameMem s s.unlockRoot := ⟨rfl, rfl, rfl, rfl, rfl, fun _ => ⟨rfl, rfl, rfl, rfl⟩⟩

theorem SameMem.rootLock (s : St) (r) : SameMem s { s with rootLock := r } :=
  ⟨rfl, rfl, rfl, rfl, rfl, fun _ => ⟨rfl, rfl, rfl, rfl⟩⟩

theorem SameMem.addItems (s : St) (a d) : SameMem s (s.addItems a d) := by
  refine ⟨rfl, rfl, rfl, rfl, rfl, ?_⟩
  intro b
  unfold St.addItems
  by_cases h : b = a
  · subst h; simp
  · simp [upd_of_ne _ _ h]

theorem SameMem.flushStats (s : St) (a) : SameMem s (s.flushStats a) := by
  refine ⟨rfl, rfl, rfl, rfl, rfl, ?_⟩
  intro b
  unfold St.flushStats
  by_cases h : b = a
  · subst h; simp
  · simp [upd_of_ne _ _ h]

theorem total_congr {s s' : St} (h1 : s'.nalloc = s.nalloc) (h2 : s'.live = s.live) (h3 : s'.allocs = s.allocs) :
    s'.total = s.total := by
  unfold St.total; rw [h1, h2, h3]

theorem total_addItems {s : St} {a : Nat} (ha : a < s.nalloc) (d : Int) : (s.addItems a d).total = s.total + d := by
  have := total_change (st := s) (st' := s.addItems a d) ha rfl (fun b hb => by simp [St.addItems, upd_of_ne _ _ hb])
  simp only [St.addItems, upd_same] at this ⊢
  omega

theorem total_flushStats {s : St} {a : Nat} (ha : a < s.nalloc) : (s.flushStats a).total = s.total := by
  have := total_change (st := s) (st' := s.flushStats a) ha rfl (fun b hb => by simp [St.flushStats, upd_of_ne _ _ hb])
  simp only [St.flushStats, upd_same] at this ⊢
  omega

/-- Node locks released. -/
def Unlock.list : Unlock → List Nat
  | .none => []
  | .root => []
  | .two n p => lockList2 n p
  | .three c n p => lockList3 c n p
  | .words l => l

/-- Root locks released. -/
def Unlock.rootN : Unlock → Int
  | .root => 1
  | _ => 0

/-- Slots to be recycled. -/
def Tail.seg (tl : Tail) (x : Nat) : Nat :=
  match tl.free with
  | none => 0
  | some (n, slots) => Radix.seg n slots x

/-- What follows the publication of the change: unlocking, recycling, counting, end of the operation. -/
structure TailEff (P : Key → Word → Prop) (a : Nat) (s s' : St) (L : List Nat) (rl d : Int) (D : Nat → Nat) : Prop where
  mem : s'.mem = s.mem
  root : s'.root = s.root
  rootLock : s'.rootLock = s.rootLock - rl
  locks : s'.locks = bumpLocks s.locks L
  epoch : s.epoch ≤ s'.epoch
  resv : s'.resv = upd s.resv a maxUint64
  nalloc : s'.nalloc = s.nalloc
  baNext : s'.baNext = s.baNext
  baReady : s'.baReady = s.baReady
  total : s'.total = s.total + d
  free : ∀ p : Nat → Bool, p s.epoch = false → ∀ x, freeP p s' x ≤ freeP p s x
  core : ∀ t N, CoreN P s t (fun x => N x + D x) → CoreN P s' t N

/-- Summary of building new nodes, or of publishing a change from `t` to `t'` under the node locks `L`. `N`, `N'`: memory that belongs
neither to the tree nor to the allocators, before and after; `Q`: the part of it that the operation itself has built. -/
structure PubEff (P : Key → Word → Prop) (st st' : St) (t t' : T) (N N' Q : Nat → Nat) (L : List Nat) : Prop where
  core : CoreN P st' t' N'
  locks : st'.locks = st.locks
  rootLock : st'.rootLock = st.rootLock
  epoch : st'.epoch = st.epoch
  resv : st'.resv = st.resv
  nalloc : st'.nalloc = st.nalloc
  baNext : st.baNext ≤ st'.baNext
  nblocks : st.nblocks ≤ st'.nblocks
  total : st'.total = st.total
  free : ∀ (p : Nat → Bool) x, freeP p st' x ≤ freeP p st x
  new : ∀ x, 0 < t'.cover x → t.cover x = 0 → 0 < Q x
  mem : ∀ x, freeP (availNow st) st x = 0 → t'.cover x = 0 → st'.mem x = st.mem x
  stable : Stable t t' (fun n => n ∈ L)
  keep : Keep t t'
  keep' : Keep t' t

theorem bumpLocks_nil (l : Nat → Nat → Int) : bumpLocks l [] = l := by
  funext b i; simp [bumpLocks]

theorem store_fields (s : St) (p : Ptr) (w : Word) :
    (s.store p w).locks = s.locks ∧ (s.store p w).rootLock = s.rootLock ∧ (s.store p w).epoch = s.epoch ∧
    (s.store p w).resv = s.resv ∧ (s.store p w).nalloc = s.nalloc ∧ (s.store p w).baNext = s.baNext ∧
    (s.store p w).baReady = s.baReady ∧ (s.store p w).allocs = s.allocs ∧ (s.store p w).live = s.live := by
  cases p <;> simp [St.store]

theorem store_freeP (s : St) (p : Ptr) (w : Word) (q : Nat → Bool) (x : Nat) :
    freeP q (s.store p w) x = freeP q s x := by
  cases p <;> rfl

theorem AllocEff.total {a st st' N N'} (h : AllocEff a st st' N N') (ha : a < st.nalloc) : st'.total = st.total := by
  have := total_change ha h.nalloc (fun b hb => by rw [h.other b hb])
  have h1 := h.live
  have h2 := h.items
  omega

/-- The slot written by a commit belongs to the tree. -/
theorem holePtr_cover {C : Ctx} {t0 t1 : T} (hn : Norm C t0)
    (hs : ∀ f, C.getLast? = some f → f.big = true ∨ t0.isEmpty = false) (hc : Compat C t0 t1) {x : Nat}
    (hx : holePtr C = .slot x) : 0 < (plug C t1).cover x := by
  rcases ctx_cases C with rfl | ⟨E, f, rfl⟩
  · simp [holePtr] at hx
  · simp only [holePtr, List.getLast?_concat, Ptr.slot.injEq] at hx
    subst hx
    have hf : f.ch f.c = t0 := hn f (by simp)
    have hcf : f.big = true ∨ t1.isEmpty = (f.ch f.c).isEmpty := by rw [hf]; exact hc f (by simp)
    have hr := childSlot_range (a := f.addr) (pfx := f.pfx) (show f.big = true ∨ (f.ch f.c).isEmpty = false by
      rw [hf]; exact hs f (by simp))
    have e1 : plug (E ++ [f]) t1 = plug E (.node f.addr f.pfx f.big (upd f.ch f.c t1)) := by
      rw [plug_append]; rfl
    rw [e1]
    refine (At_plug E _).cover_node (by omega) ?_
    rw [nodeSize_upd hcf]
    exact hr.2

theorem Compat.symm {C : Ctx} {t0 t1 : T} (h : Compat C t0 t1) : Compat C t1 t0 :=
  fun f hf => (h f hf).imp id Eq.symm

theorem pub_intro {P} {st : St} {C : Ctx} {t0 t1 : T} {N0 N D : Nat → Nat} {L : List Nat}
    (hcore : CoreN P st (plug C t0) (fun x => N0 x + N x))
    (hn : Norm C t0) (hs : ∀ f, C.getLast? = some f → f.big = true ∨ t0.isEmpty = false) (hc : Compat C t0 t1)
    (h1r : t1.Repr st.mem) (h1w : t1.WF P (pathOf C)) (h1b : t1.InBlocks st.baNext)
    (hcov : ∀ x, t1.cover x + D x ≤ t0.cover x + N x) (hD : D 0 = 0)
    (hstab : Stable (plug C t0) (plug C t1) (fun n => n ∈ L)) (hk : Keep t0 t1) (hk' : Keep t1 t0) :
    PubEff P st (st.store (holePtr C) (holeWord C t1)) (plug C t0) (plug C t1) (fun x => N0 x + N x) (fun x => N0 x + D x) N L := by
  have h0 := hcore.n0
  have hc1 := hcore.commit (D := fun x => N0 x + D x) hn hs hc h1r h1w h1b
    (fun x => by have := hcov x; omega) (by simp only [hD]; omega)
  obtain ⟨f1, f2, f3, f4, f5, f6, f7, f8, f9⟩ := store_fields st (holePtr C) (holeWord C t1)
  refine ⟨hc1, f1, f2, f3, f4, f5, Nat.le_of_eq f6.symm, ?_, ?_, ?_, ?_, ?_, hstab, Keep_plug hc ?_ hk, Keep_plug hc.symm ?_ hk'⟩
  · have : (st.store (holePtr C) (holeWord C t1)).nblocks = st.nblocks := by unfold St.nblocks; rw [f6, f7]
    rw [this]; exact Nat.le_refl _
  · unfold St.total; rw [f5, f8, f9]
  · intro p x
    rw [store_freeP]
    exact Nat.le_refl _
  · intro x h1 h2
    have e1 := cover_plug hc x
    have e2 := hcov x
    omega
  · intro x h1 h2
    cases hp : holePtr C with
    | root => rfl
    | slot y =>
      have := holePtr_cover hn hs hc hp
      simp only [St.store]
      refine upd_of_ne _ _ ?_
      rintro rfl
      omega
  · intro x; have := hcore.sep x; omega
  · intro x; have := hc1.sep x; omega

/-! ## The tail -/

/-- Releasing held locks one after the other. -/
theorem unlockWords_spec {st : St} {done l : List Nat} (h : allOdd st l) :
    ({ st with locks := bumpLocks st.locks done } : St).unlockWords done l =
      .ok { st with locks := bumpLocks st.locks (l ++ done) } := by
  induction l generalizing done with
  | nil => rfl
  | cons n l ih =>
    unfold St.unlockWords
    have hl : allOdd st l := fun m hm => h m (List.mem_cons_of_mem _ hm)
    by_cases hd : (done.all (lockDiffer n)) = true
    · rw [if_pos hd]
      have hne : ¬ ∃ m ∈ done, sameLock m n := by
        rintro ⟨m, hm, hs⟩
        rw [List.all_eq_true] at hd
        exact (lockDiffer_iff _ _).1 (hd m hm) (sameLock_comm.1 hs)
      rw [unlockNode_spec (by rw [bump_gen_other hne]; exact h n (by simp))]
      simp only [bind, Except.bind]
      rw [bump_bump hne, ih hl]
      congr 2
      apply bumpLocks_perm
      intro m
      simp only [List.mem_append, List.mem_cons]
      constructor
      · rintro (h | h | h) <;> simp [h]
      · rintro ((h | h) | h) <;> simp [h]
    · rw [if_neg hd, ih hl, List.cons_append, bump_cons_same (n := n)]
      rw [Bool.not_eq_true, List.all_eq_false] at hd
      obtain ⟨m, hm, hs⟩ := hd
      refine ⟨m, List.mem_append_right _ hm, sameLock_comm.1 ((lockDiffer_false _ _).1 (by simpa using hs))⟩

theorem unlockWords_all {st : St} {l : List Nat} (h : allOdd st l) :
    st.unlockWords [] l = .ok { st with locks := bumpLocks st.locks l } := by
  have := unlockWords_spec (done := []) h
  simpa [bumpLocks_nil] using this

/-- The first release. -/
theorem unlockOne_spec {st : St} {u : Unlock} (h : allOdd st u.list) (h3 : ∀ c n p, u = .three c n p → n ≠ 0) {r}
    (hr : st.unlockOne u = some r) :
    (u = .root ∧ r = .ok (.none, { st with rootLock := st.rootLock - 1 })) ∨
    ∃ n l, n ∈ u.list ∧ (∀ m ∈ l, m ∈ u.list ∧ ¬ sameLock m n) ∧ (∀ m ∈ u.list, sameLock m n ∨ m ∈ l) ∧ u ≠ .root ∧
      r = .ok (.words l, { st with locks := bumpLocks st.locks [n] }) := by
  have key : ∀ n l, u.plan = n :: l → (∀ m, m ∈ n :: l ↔ m ∈ u.list) → u ≠ .root → st.unlockOne u = some (do
        let st ← st.unlockNode n
        return (.words (l.filter fun m => lockDiffer m n), st)) → ∃ n l, n ∈ u.list ∧ (∀ m ∈ l, m ∈ u.list ∧ ¬ sameLock m n) ∧
          (∀ m ∈ u.list, sameLock m n ∨ m ∈ l) ∧ u ≠ .root ∧
      r = .ok (.words l, { st with locks := bumpLocks st.locks [n] }) := by
    intro n l _ hmem hroot he
    rw [he] at hr
    injection hr with hr
    have hn := (hmem n).1 (by simp)
    rw [unlockNode_spec (h n hn)] at hr
    refine ⟨n, _, hn, ?_, ?_, hroot, hr.symm⟩
    · intro m hm
      rw [List.mem_filter] at hm
      exact ⟨(hmem m).1 (List.mem_cons_of_mem _ hm.1), (lockDiffer_iff _ _).1 hm.2⟩
    · intro m hm
      by_cases hs : sameLock m n
      · exact .inl hs
      · right
        rcases List.mem_cons.1 ((hmem m).2 hm) with rfl | hm'
        · exact absurd (sameLock_refl _) hs
        · exact List.mem_filter.2 ⟨hm', (lockDiffer_iff _ _).2 hs⟩
  cases u with
  | none => cases hr
  | root => cases hr; exact .inl ⟨rfl, rfl⟩
  | two n p =>
    right
    by_cases hp : p = 0
    · exact key n [] (by simp [Unlock.plan, hp]) (by simp [Unlock.list, lockList2, hp]) (by simp) (by simp [St.unlockOne, Unlock.plan, hp])
    · exact key p [n] (by simp [Unlock.plan, hp]) (by intro m; simp [Unlock.list, lockList2, hp]; exact Or.comm) (by simp)
        (by simp [St.unlockOne, Unlock.plan, hp])
  | three c n p =>
    right
    have hn := h3 c n p rfl
    by_cases hp : p = 0
    · exact key n [c] (by simp [Unlock.plan, hp, hn]) (by intro m; simp [Unlock.list, lockList3, hp]; exact Or.comm) (by simp)
        (by simp [St.unlockOne, Unlock.plan, hp, hn])
    · refine key p [n, c] (by simp [Unlock.plan, hp]) ?_ (by simp) (by simp [St.unlockOne, Unlock.plan, hp])
      intro m
      simp only [Unlock.list, lockList3, hp, if_false, List.mem_cons, List.not_mem_nil, or_false]
      constructor
      · rintro (h | h | h) <;> simp [h]
      · rintro (h | h | h) <;> simp [h]
  | words l =>
    right
    cases l with
    | nil => cases hr
    | cons n l => exact key n l rfl (fun m => Iff.rfl) (by simp) rfl

theorem unlockBy_spec {st : St} {u : Unlock} (h : allOdd st u.list) (h3 : ∀ c n p, u = .three c n p → n ≠ 0) :
    st.unlockBy u = .ok { st with locks := bumpLocks st.locks u.list, rootLock := st.rootLock - u.rootN } := by
  cases u with
  | none => simp [St.unlockBy, Unlock.list, Unlock.rootN, bumpLocks_nil]
  | root => simp [St.unlockBy, Unlock.list, Unlock.rootN, bumpLocks_nil, St.unlockRoot]
  | two n p =>
    have := unlockNodes2_spec (st := st) (node := n) (parent := p) h
    simpa [St.unlockBy, Unlock.list, Unlock.rootN] using this
  | three c n p =>
    have := unlockList3_spec (st := st) (child := c) (node := n) (parent := p) (h3 c n p rfl) h
    simpa [St.unlockBy, Unlock.list, Unlock.rootN] using this
  | words l =>
    have := unlockWords_all (st := st) (l := l) h
    simpa [St.unlockBy, Unlock.list, Unlock.rootN] using this

theorem SameMem.unlocked (s : St) (l r) : SameMem s { s with locks := l, rootLock := r } :=
  ⟨rfl, rfl, rfl, rfl, rfl, fun _ => ⟨rfl, rfl, rfl, rfl⟩⟩

theorem addItems_zero (s : St) (a : Nat) : s.addItems a 0 = s := by
  unfold St.addItems
  cases s with
  | mk _ _ _ _ _ _ _ _ _ _ al _ =>
    simp only [Int.add_zero, St.mk.injEq, true_and, and_true]
    exact upd_self al a

theorem runTail_spec {P a} {s : St} {tl : Tail} (ha : a < s.nalloc) (hodd : allOdd s tl.unl.list)
    (h3 : ∀ c n p, tl.unl = .three c n p → n ≠ 0)
    (hok : ∀ b, b < s.nalloc → AllocOK s.baNext (s.allocs b))
    (hpos : ∀ n slots, tl.free = some (n, slots) → NewPos s n slots) :
    (∃ n, tl.free = some (n, recyclerLen) ∧ s.runTail a tl = .error .index) ∨
    ((∀ n, tl.free ≠ some (n, recyclerLen)) ∧
      ∃ s', s.runTail a tl = .ok s' ∧ TailEff P a s s' tl.unl.list tl.unl.rootN tl.items tl.seg) := by
  unfold St.runTail
  rw [unlockBy_spec hodd h3]
  simp only [bind, Except.bind]
  generalize hs0 : ({ s with locks := bumpLocks s.locks tl.unl.list, rootLock := s.rootLock - tl.unl.rootN } : St) = s0
  have hm0 : SameMem s s0 := by rw [← hs0]; exact SameMem.unlocked s _ _
  have e1 : s0.locks = bumpLocks s.locks tl.unl.list := by rw [← hs0]
  have e2 : s0.rootLock = s.rootLock - tl.unl.rootN := by rw [← hs0]
  have e3 : s0.epoch = s.epoch := by rw [← hs0]
  have e4 : s0.resv = s.resv := by rw [← hs0]
  have e5 : s0.live = s.live := by rw [← hs0]
  have e6 : s0.allocs = s.allocs := by rw [← hs0]
  have e7 : s0.total = s.total := total_congr hm0.nalloc e5 e6
  have ha0 : a < s0.nalloc := by rw [hm0.nalloc]; exact ha
  cases hf : tl.free with
  | none =>
    right
    refine ⟨by simp, _, rfl, ?_⟩
    have hm := hm0.trans ((SameMem.addItems s0 a tl.items).trans (SameMem.endOp _ a))
    refine ⟨hm.mem, hm.root, e2, e1, ?_, ?_, hm.nalloc, hm.baNext, hm.baReady, ?_, ?_, ?_⟩
    · exact Nat.le_of_eq e3.symm
    · show upd s0.resv a maxUint64 = _; rw [e4]
    · have : ((s0.addItems a tl.items).endOp a).total = (s0.addItems a tl.items).total := total_congr rfl rfl rfl
      rw [this, total_addItems ha0, e7]
    · intro p _ x; exact Nat.le_of_eq (hm.freeP p x)
    · intro t N hc
      refine hm.core ?_
      exact hc.drop fun x => Nat.le_add_right _ _
  | some ns =>
    obtain ⟨n, slots⟩ := ns
    have hp := hpos n slots hf
    have hp0 : NewPos s0 n slots := ⟨hp.pos, by rw [hm0.baNext]; exact hp.blk, hp.fit⟩
    have hok0 : ∀ b, b < s0.nalloc → AllocOK s0.baNext (s0.allocs b) := by
      rw [hm0.nalloc, hm0.baNext, e6]; exact hok
    rcases recycle_spec ha0 hok0 hp0 with ⟨h1, h2⟩ | ⟨h1, s1, h2, h3⟩
    · left
      refine ⟨n, by rw [h1], ?_⟩
      simp only [h2]
    · right
      refine ⟨fun m hm => h1 (by simpa using (Prod.mk.inj (Option.some.inj hm)).2), (s1.addItems a tl.items).endOp a, ?_, ?_⟩
      · simp only [h2]; rfl
      have hm := (SameMem.addItems s1 a tl.items).trans (SameMem.endOp _ a)
      refine ⟨?_, ?_, ?_, ?_, ?_, ?_, ?_, ?_, ?_, ?_, ?_, ?_⟩
      · rw [hm.mem, h3.mem, hm0.mem]
      · rw [hm.root, h3.root, hm0.root]
      · show s1.rootLock = _; rw [h3.rootLock, e2]
      · show s1.locks = _; rw [h3.locks, e1]
      · show s.epoch ≤ s1.epoch; rw [← e3]; exact h3.epoch
      · show upd s1.resv a maxUint64 = _; rw [h3.resv, e4]
      · rw [hm.nalloc, h3.nalloc, hm0.nalloc]
      · rw [hm.baNext, h3.baNext, hm0.baNext]
      · rw [hm.baReady, h3.baReady, hm0.baReady]
      · have : ((s1.addItems a tl.items).endOp a).total = (s1.addItems a tl.items).total := total_congr rfl rfl rfl
        rw [this, total_addItems (by rw [h3.nalloc]; exact ha0), h3.total, e7]
      · intro p hpe x
        rw [hm.freeP]
        have := h3.free p x
        rw [if_neg (by rw [e3]; simp [hpe]), Nat.add_zero, hm0.freeP] at this
        exact this
      · intro t N hc
        refine hm.core (h3.core (hm0.core hc) ?_)
        intro x
        simp only [Tail.seg, hf]
        exact Nat.le_refl _

end Radix
