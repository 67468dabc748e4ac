import Verif.Model.Alloc
import Verif.Prefix
/-!
# The allocator hands out disjoint memory

`freeCover st x` counts how often slot `x` is free: in the bump region or the recycler of some allocator, or in
a block not handed out yet.
-/
namespace Radix

theorem sum_upd {α : Type} [DecidableEq α] {f : α → Nat} {c : α} {v : Nat} (l : List α) (hn : l.Nodup) (hc : c ∈ l) :
    (l.map (upd f c v)).sum + f c = (l.map f).sum + v := by
  induction l with
  | nil => simp at hc
  | cons b l ih =>
    rw [List.nodup_cons] at hn
    simp only [List.map_cons, List.sum_cons]
    by_cases hb : b = c
    · subst hb
      have : l.map (upd f b v) = l.map f := by
        apply List.map_congr_left
        intro x hx
        exact upd_of_ne _ _ (fun e => hn.1 (e ▸ hx))
      rw [this, upd_same]
      omega
    · rw [upd_of_ne _ _ hb]
      have := ih hn.2 (by simpa [Ne.symm hb] using hc)
      omega

/-- `[n, n+t)` contains `x`. -/
def seg (n t x : Nat) : Nat := if n ≤ x ∧ x < n + t then 1 else 0

/-- An item of `t` slots covers `x`; only items whose epoch satisfies `p` count. -/
def segE (p : Nat → Bool) (it : Item) (t x : Nat) : Nat := if p it.e then seg it.n t x else 0

def listCover (p : Nat → Bool) (t x : Nat) (l : List Item) : Nat := (l.map fun it => segE p it t x).sum

def recCover (p : Nat → Bool) (r : Nat → List Item) (x : Nat) : Nat :=
  ((List.range recyclerLen).map fun t => listCover p t x (r t)).sum

def bumpCover (al : Alloc) (x : Nat) : Nat :=
  if (al.offset + al.nextFree) / 8 ≤ x ∧ x < al.offset / 8 + (blockSlots - 1) then 1 else 0

def allocCover (p : Nat → Bool) (al : Alloc) (x : Nat) : Nat := bumpCover al x + recCover p al.recycler x

/-- How often `x` is free, counting only recycled items whose epoch satisfies `p`. -/
def freeP (p : Nat → Bool) (st : St) (x : Nat) : Nat :=
  ((List.range st.nalloc).map fun a => allocCover p (st.allocs a) x).sum +
    (if st.baNext * blockSlots ≤ x then 1 else 0)

/-- How often `x` is free. -/
def freeCover (st : St) (x : Nat) : Nat := freeP (fun _ => true) st x

/-- Consistency of one allocator when `n` blocks have been handed out. -/
structure AllocOK (n : Nat) (al : Alloc) : Prop where
  mod8 : al.nextFree % 8 = 0
  bump : (al.nextFree = blockSize ∧ al.offset = 0 ∧ al.block = 0) ∨
    (al.block < n ∧ al.offset = (if al.block = 0 then 8 else al.block * blockSize) ∧ al.nextFree < blockSize)
  items : ∀ t it, t < recyclerLen → it ∈ al.recycler t →
    0 < it.n ∧ it.n / blockSlots < n ∧ it.n % blockSlots + t ≤ blockSlots

theorem AllocOK.mono {n n' : Nat} {al : Alloc} (h : AllocOK n al) (hn : n ≤ n') : AllocOK n' al := by
  refine ⟨h.mod8, ?_, ?_⟩
  · rcases h.bump with h | ⟨h1, h2, h3⟩
    · exact .inl h
    · exact .inr ⟨by omega, h2, h3⟩
  · intro t it ht hit
    have := h.items t it ht hit
    exact ⟨this.1, by omega, this.2.2⟩

/-- All fields that allocation does not touch. -/
structure AllocFrame (a : Nat) (st st' : St) : Prop where
  mem : ∀ x, x < st.baNext * blockSlots → st'.mem x = st.mem x
  root : st'.root = st.root
  rootLock : st'.rootLock = st.rootLock
  locks : st'.locks = st.locks
  epoch : st'.epoch = st.epoch
  resv : st'.resv = st.resv
  nalloc : st'.nalloc = st.nalloc
  live : st'.live = st.live
  other : ∀ b, b ≠ a → st'.allocs b = st.allocs b
  items : (st'.allocs a).itemCounter = (st.allocs a).itemCounter
  counter : (st'.allocs a).counter = (st.allocs a).counter
  baNext : st.baNext ≤ st'.baNext
  nblocks : st.nblocks ≤ st'.nblocks
  nbmax : st.nblocks ≤ maxBlockCount → st'.nblocks ≤ maxBlockCount
  zero : st.mem 0 = 0 → st'.mem 0 = 0

theorem AllocFrame.refl (a : Nat) (st : St) : AllocFrame a st st := by
  constructor <;> intros <;> first | rfl | assumption | exact Nat.le_refl _

theorem AllocFrame.trans {a : Nat} {s1 s2 s3 : St} (h : AllocFrame a s1 s2) (h' : AllocFrame a s2 s3) :
    AllocFrame a s1 s3 where
  mem x hx := by
    rw [h'.mem x (Nat.lt_of_lt_of_le hx (Nat.mul_le_mul_right _ h.baNext)), h.mem x hx]
  root := h'.root.trans h.root
  rootLock := h'.rootLock.trans h.rootLock
  locks := h'.locks.trans h.locks
  epoch := h'.epoch.trans h.epoch
  resv := h'.resv.trans h.resv
  nalloc := h'.nalloc.trans h.nalloc
  live := h'.live.trans h.live
  other b hb := (h'.other b hb).trans (h.other b hb)
  items := h'.items.trans h.items
  counter := h'.counter.trans h.counter
  baNext := Nat.le_trans h.baNext h'.baNext
  nblocks := Nat.le_trans h.nblocks h'.nblocks
  nbmax hm := h'.nbmax (h.nbmax hm)
  zero hz := h'.zero (h.zero hz)

theorem pickItem_perm {r : Nat} {l : List Item} {it : Item} {rest : List Item} (h : pickItem r l = some (it, rest)) :
    (it :: rest).Perm l ∧ it.e < r := by
  unfold pickItem at h
  split at h
  · simp at h
  · rename_i i hi
    split at h
    · rename_i it' last h1 h2
      injection h with h
      injection h with ha hb
      subst ha hb
      obtain ⟨hlt, he⟩ := List.getElem?_eq_some_iff.1 h1
      have hp := (List.findIdx?_eq_some_iff_getElem.1 hi).2.1
      rw [he] at hp
      refine ⟨?_, by simpa using hp⟩
      have hsplit : l = l.take i ++ it' :: l.drop (i + 1) := by
        rw [← he, List.getElem_cons_drop, List.take_append_drop]
      rw [List.set_eq_take_append_cons_drop, if_pos hlt]
      rcases List.eq_nil_or_concat (l.drop (i + 1)) with hd | ⟨d, last', hd⟩
      · rw [hd] at hsplit
        rw [hd]
        have hl : last = it' := by
          rw [hsplit] at h2
          simpa using h2.symm
        subst hl
        rw [List.dropLast_concat]
        conv => rhs; rw [hsplit]
        exact (List.perm_append_comm (l₁ := [last])).trans (by simp)
      · have hl : last' = last := by
          rw [hsplit, hd, List.concat_eq_append] at h2
          rw [show l.take i ++ it' :: (d ++ [last']) = (l.take i ++ it' :: d) ++ [last'] by simp,
            List.getLast?_concat] at h2
          exact Option.some.inj h2
        subst hl
        rw [hd] at hsplit
        have e : (l.take i ++ last' :: l.drop (i + 1)).dropLast = l.take i ++ last' :: d := by
          rw [hd]
          rw [List.concat_eq_append, ← List.cons_append, ← List.append_assoc, List.dropLast_concat]
        rw [e]
        conv => rhs; rw [hsplit]
        rw [List.concat_eq_append]
        calc (it' :: (l.take i ++ last' :: d)).Perm (it' :: (l.take i ++ (d ++ [last']))) := by
              refine List.Perm.cons _ (List.Perm.append_left _ ?_)
              exact List.perm_append_comm (l₁ := [last'])
          List.Perm _ _ := List.perm_middle.symm
    · simp at h

theorem sum_perm {l l' : List Nat} (h : l.Perm l') : l.sum = l'.sum := by
  induction h with
  | nil => rfl
  | cons x _ ih => simp [ih]
  | swap x y l => simp only [List.sum_cons]; omega
  | trans _ _ h1 h2 => exact h1.trans h2

section
variable (p : Nat → Bool)

theorem pickItem_cover {r : Nat} {l : List Item} {it : Item} {rest : List Item} (h : pickItem r l = some (it, rest))
    (t x : Nat) : listCover p t x rest + segE p it t x = listCover p t x l := by
  have := sum_perm ((pickItem_perm h).1.map fun it => segE p it t x)
  unfold listCover
  simp only [List.map_cons, List.sum_cons] at this
  omega

theorem recCover_upd (r : Nat → List Item) {t : Nat} (ht : t < recyclerLen) (l : List Item) (x : Nat) :
    recCover p (upd r t l) x + listCover p t x (r t) = recCover p r x + listCover p t x l := by
  have := sum_upd (f := fun t => listCover p t x (r t)) (v := listCover p t x l) (c := t)
    (List.range recyclerLen) List.nodup_range (List.mem_range.2 ht)
  unfold recCover
  rw [← this]
  congr 2
  apply List.map_congr_left
  intro s _
  by_cases h : s = t
  · subst h; simp
  · simp [upd_of_ne _ _ h]

theorem listCover_append (t x : Nat) (l : List Item) (it : Item) :
    listCover p t x (l ++ [it]) = listCover p t x l + segE p it t x := by
  simp [listCover]

/-- The free slots of the allocators. -/
def allocsCover (n : Nat) (f : Nat → Alloc) (x : Nat) : Nat := ((List.range n).map fun a => allocCover p (f a) x).sum

theorem freeP_eq (st : St) (x : Nat) :
    freeP p st x = allocsCover p st.nalloc st.allocs x + (if st.baNext * blockSlots ≤ x then 1 else 0) := rfl

theorem allocsCover_change {n : Nat} {f g : Nat → Alloc} {a : Nat} (ha : a < n) (h : ∀ b, b ≠ a → g b = f b) (x : Nat) :
    allocsCover p n g x + allocCover p (f a) x = allocsCover p n f x + allocCover p (g a) x := by
  have := sum_upd (f := fun a => allocCover p (f a) x) (v := allocCover p (g a) x) (c := a)
    (List.range n) List.nodup_range (List.mem_range.2 ha)
  have e : (List.range n).map (fun b => allocCover p (g b) x) =
      (List.range n).map (upd (fun a => allocCover p (f a) x) a (allocCover p (g a) x)) := by
    apply List.map_congr_left
    intro s _
    by_cases hs : s = a
    · subst hs; simp
    · simp [upd_of_ne _ _ hs, h s hs]
  unfold allocsCover
  rw [e]
  exact this

theorem freeP_congr {st st' : St} (h1 : st'.nalloc = st.nalloc) (h2 : st'.baNext = st.baNext)
    (h3 : ∀ a, a < st.nalloc → ∀ x, allocCover p (st'.allocs a) x = allocCover p (st.allocs a) x) (x : Nat) :
    freeP p st' x = freeP p st x := by
  unfold freeP
  rw [h1, h2]
  have e : (List.range st.nalloc).map (fun a => allocCover p (st'.allocs a) x) =
      (List.range st.nalloc).map (fun a => allocCover p (st.allocs a) x) := by
    apply List.map_congr_left
    intro a ha
    exact h3 a (List.mem_range.1 ha) x
  rw [e]

end

/-- What a new node satisfies. -/
structure NewNodeSpec (a slots : Nat) (st st' : St) (n : Nat) : Prop where
  frame : AllocFrame a st st'
  cover : ∀ p : Nat → Bool, (∀ e, e < st.minReservation → p e = true) →
    ∀ x, freeP p st' x + seg n slots x ≤ freeP p st x
  mono : ∀ (p : Nat → Bool) x, freeP p st' x ≤ freeP p st x
  ok : ∀ b, b < st.nalloc → AllocOK st'.baNext (st'.allocs b)
  pos : 0 < n
  blk : n / blockSlots < st'.baNext
  fit : n % blockSlots + slots ≤ blockSlots

theorem NewNodeSpec.free {a slots : Nat} {st st' : St} {n : Nat} (h : NewNodeSpec a slots st st' n) (x : Nat) :
    freeCover st' x + seg n slots x ≤ freeCover st x := h.cover _ (fun _ _ => rfl) x

theorem segE_le {p : Nat → Bool} {it : Item} {s t x : Nat} (h : s ≤ t) :
    (if p it.e then seg it.n s x else 0) + segE p ⟨it.n + s, it.e⟩ (t - s) x = segE p it t x := by
  unfold segE seg
  simp only
  repeat' split
  all_goals omega

theorem seg_le {n s t x : Nat} (h : s ≤ t) : seg n s x + seg (n + s) (t - s) x = seg n t x := by
  unfold seg
  repeat' split
  all_goals omega

theorem blockSize_eq : blockSize = 2097152 := rfl
theorem blockSlots_eq : blockSlots = 262144 := rfl

theorem fresh_block_spec {st st' : St} {a slots : Nat} (ha : a < st.nalloc) (hs : slots + 1 < blockSlots)
    (hok : ∀ b, b < st.nalloc → AllocOK st.baNext (st.allocs b))
    (hmem : ∀ x, x < st.baNext * blockSlots → st'.mem x = st.mem x) (hzero : st.mem 0 = 0 → st'.mem 0 = 0)
    (h1 : st'.root = st.root) (h2 : st'.rootLock = st.rootLock) (h3 : st'.locks = st.locks)
    (h4 : st'.epoch = st.epoch) (h5 : st'.resv = st.resv) (h6 : st'.nalloc = st.nalloc) (h7 : st'.live = st.live)
    (h8 : ∀ b, b ≠ a → st'.allocs b = st.allocs b)
    (h9 : st'.baNext = st.baNext + 1) (h10 : st'.baReady = false)
    (h11 : st.baReady = true ∨ st.baNext < maxBlockCount)
    (ha1 : (st'.allocs a).nextFree = slots * 8) (ha2 : (st'.allocs a).block = st.baNext)
    (ha3 : (st'.allocs a).offset = if st.baNext * blockSize = 0 then 8 else st.baNext * blockSize)
    (ha4 : (st'.allocs a).recycler = (st.allocs a).recycler)
    (ha5 : (st'.allocs a).counter = (st.allocs a).counter)
    (ha6 : (st'.allocs a).itemCounter = (st.allocs a).itemCounter) :
    NewNodeSpec a slots st st' ((if st.baNext * blockSize = 0 then 8 else st.baNext * blockSize) / 8) := by
  have hal := hok a ha
  rw [blockSlots_eq] at hs
  have hcov : ∀ (p : Nat → Bool) x, freeP p st' x +
      seg ((if st.baNext * blockSize = 0 then 8 else st.baNext * blockSize) / 8) slots x ≤ freeP p st x := by
    intro p x
    have e1 := allocsCover_change p ha h8 x
    rw [freeP_eq, freeP_eq, h6]
    unfold allocCover at e1
    rw [ha4] at e1
    have e2 : bumpCover (st'.allocs a) x +
        seg ((if st.baNext * blockSize = 0 then 8 else st.baNext * blockSize) / 8) slots x +
        (if st'.baNext * blockSlots ≤ x then 1 else 0) ≤ (if st.baNext * blockSlots ≤ x then 1 else 0) := by
      unfold bumpCover seg
      rw [ha1, ha3, h9, blockSlots_eq, blockSize_eq]
      split <;> split <;> split <;> split <;> split <;> omega
    omega
  refine ⟨⟨hmem, h1, h2, h3, h4, h5, h6, h7, h8, ha6, ha5, by omega, ?_, ?_, hzero⟩, fun p _ x => hcov p x,
    fun p x => Nat.le_trans (Nat.le_add_right _ _) (hcov p x), ?_, ?_, ?_, ?_⟩
  · simp only [St.nblocks, h10, h9]
    split <;> simp
  · intro hm
    simp only [St.nblocks, h10, h9] at *
    rcases h11 with h | h
    · simpa [h] using hm
    · simp; omega
  · intro b hb
    rw [h9]
    by_cases hba : b = a
    · subst hba
      refine ⟨by rw [ha1]; omega, .inr ⟨by omega, ?_, ?_⟩, ?_⟩
      · rw [ha3, ha2, blockSize_eq]
        split <;> split <;> omega
      · rw [ha1, blockSize_eq]; omega
      · intro t it ht hit
        rw [ha4] at hit
        have := hal.items t it ht hit
        exact ⟨this.1, by omega, this.2.2⟩
    · rw [h8 b hba]
      exact (hok b hb).mono (by omega)
  · rw [blockSize_eq]; split <;> omega
  · rw [h9, blockSize_eq, blockSlots_eq]; split <;> omega
  · rw [blockSize_eq, blockSlots_eq]; split <;> omega

theorem allocFresh_spec {st : St} {a slots : Nat} (ha : a < st.nalloc) (hs1 : 1 ≤ slots) (hs : slots + 1 < blockSlots)
    (hok : ∀ b, b < st.nalloc → AllocOK st.baNext (st.allocs b)) :
    st.allocFresh a slots = .error .noBlocks ∨
      ∃ n st', st.allocFresh a slots = .ok (n, st') ∧ NewNodeSpec a slots st st' n := by
  have hal := hok a ha
  unfold St.allocFresh
  simp only
  split
  · -- a new block
    unfold St.blockStep
    split
    · right
      simp only [bind, Except.bind, pure, Except.pure]
      refine ⟨_, _, rfl, ?_⟩
      refine fresh_block_spec ha hs hok (fun _ _ => rfl) (fun h => h) rfl rfl rfl rfl rfl rfl rfl ?_ rfl rfl
        (.inl (by assumption)) ?_ ?_ ?_ ?_ ?_ ?_
      · intro b hb; simp [upd_of_ne _ _ hb]
      all_goals simp
    · split
      · right
        simp only [bind, Except.bind, pure, Except.pure]
        refine ⟨_, _, rfl, ?_⟩
        refine fresh_block_spec ha hs hok ?_ ?_ rfl rfl rfl rfl rfl rfl rfl ?_ rfl rfl
          (.inr (by assumption)) ?_ ?_ ?_ ?_ ?_ ?_
        · intro x hx
          have hne : x / blockSlots ≠ st.baNext := by
            rw [blockSlots_eq] at *
            omega
          simp [hne]
        · intro hz; simp [hz]
        · intro b hb; simp [upd_of_ne _ _ hb]
        all_goals simp
      · left
        rfl
  · -- room in the current block
    rename_i hroom
    right
    refine ⟨_, _, rfl, ?_⟩
    have h8 := hal.mod8
    rcases hal.bump with ⟨h1, _⟩ | ⟨h1, h2, h3⟩
    · omega
    rw [blockSize_eq] at *
    have hoff : (st.allocs a).offset % 8 = 0 := by
      rw [h2]; split <;> omega
    generalize hst' : ({ st with allocs := upd st.allocs a _ } : St) = st'
    have g1 : ∀ b, b ≠ a → st'.allocs b = st.allocs b := by
      intro b hb; rw [← hst']; simp [upd_of_ne _ _ hb]
    have g2 : st'.nalloc = st.nalloc := by rw [← hst']
    have g3 : st'.baNext = st.baNext := by rw [← hst']
    have g4 : (st'.allocs a).nextFree = (st.allocs a).nextFree + slots * 8 := by rw [← hst']; simp
    have g5 : (st'.allocs a).offset = (st.allocs a).offset := by rw [← hst']; simp
    have g6 : (st'.allocs a).block = (st.allocs a).block := by rw [← hst']; simp
    have g7 : (st'.allocs a).recycler = (st.allocs a).recycler := by rw [← hst']; simp
    have hcov : ∀ (p : Nat → Bool) x, freeP p st' x +
        seg (((st.allocs a).offset + (st.allocs a).nextFree) / 8) slots x ≤ freeP p st x := by
      intro p x
      have e1 := allocsCover_change p ha g1 x
      rw [freeP_eq, freeP_eq, g2, g3]
      unfold allocCover at e1
      rw [g7] at e1
      have e2 : bumpCover (st'.allocs a) x +
          seg (((st.allocs a).offset + (st.allocs a).nextFree) / 8) slots x ≤ bumpCover (st.allocs a) x := by
        unfold bumpCover seg
        rw [g4, g5, blockSlots_eq]
        split <;> split <;> split <;> omega
      omega
    refine ⟨?_, ?_, ?_, ?_, ?_, ?_, ?_⟩
    · subst hst'
      exact ⟨fun _ _ => rfl, rfl, rfl, rfl, rfl, rfl, rfl, rfl, g1, by simp, by simp, Nat.le_refl _, Nat.le_refl _,
        fun h => h, fun h => h⟩
    · intro p _ x
      exact hcov p x
    · intro p x
      exact Nat.le_trans (Nat.le_add_right _ _) (hcov p x)
    · intro b hb
      rw [g3]
      by_cases hba : b = a
      · subst hba
        refine ⟨by rw [g4]; omega, .inr ⟨by omega, ?_, ?_⟩, ?_⟩
        · rw [g5, g6, blockSize_eq]; exact h2
        · rw [g4, blockSize_eq]; omega
        · rw [g7]; exact hal.items
      · rw [g1 b hba]
        exact hok b hb
    · rw [h2]; split <;> omega
    · rw [h2, blockSlots_eq, g3]
      split <;> omega
    · rw [h2, blockSlots_eq]
      split <;> omega

theorem newNode_spec {st : St} {a slots : Nat} (ha : a < st.nalloc) (h2 : 2 ≤ slots) (hs : slots + 1 < blockSlots)
    (hok : ∀ b, b < st.nalloc → AllocOK st.baNext (st.allocs b)) :
    st.newNode a slots = .error .noBlocks ∨
      ∃ n st', st.newNode a slots = .ok (n, st') ∧ NewNodeSpec a slots st st' n := by
  unfold St.newNode
  simp only
  split
  · rename_i t it rest hf
    right
    refine ⟨_, _, rfl, ?_⟩
    obtain ⟨t', ht', hp⟩ := List.exists_of_findSome?_eq_some hf
    obtain ⟨q, hp, he⟩ := Option.map_eq_some_iff.1 hp
    obtain ⟨rfl, rfl⟩ := Prod.mk.inj he
    have hts : slots ≤ t' ∧ t' < recyclerLen := by
      unfold sizesToTry at ht'
      split at ht'
      · rcases List.mem_cons.1 ht' with rfl | h
        · exact ⟨Nat.le_refl _, by assumption⟩
        · have := List.mem_range'_1.1 h
          have : recyclerLen = 258 := rfl
          omega
      · simp at ht'
    have hperm := pickItem_perm hp
    have hmem : it ∈ (st.allocs a).recycler t' := hperm.1.subset (by simp)
    have hrest : ∀ y ∈ rest, y ∈ (st.allocs a).recycler t' := fun y hy => hperm.1.subset (by simp [hy])
    have hal := hok a ha
    have hit := hal.items t' it hts.2 hmem
    rw [blockSlots_eq] at hit hs
    generalize hst' : ({ st with allocs := upd st.allocs a _ } : St) = st'
    have g1 : ∀ b, b ≠ a → st'.allocs b = st.allocs b := by
      intro b hb; rw [← hst']; simp [upd_of_ne _ _ hb]
    have g2 : st'.nalloc = st.nalloc := by rw [← hst']
    have g3 : st'.baNext = st.baNext := by rw [← hst']
    have g4 : (st'.allocs a).nextFree = (st.allocs a).nextFree := by rw [← hst']; simp
    have g5 : (st'.allocs a).offset = (st.allocs a).offset := by rw [← hst']; simp
    have g6 : (st'.allocs a).block = (st.allocs a).block := by rw [← hst']; simp
    have g7 : (st'.allocs a).recycler = if t' - slots ≥ 2 then
            upd (upd (st.allocs a).recycler t' rest) (t' - slots)
              (upd (st.allocs a).recycler t' rest (t' - slots) ++ [⟨it.n + slots, it.e⟩])
          else upd (st.allocs a).recycler t' rest := by rw [← hst']; simp
    have hcov : ∀ (p : Nat → Bool) x, freeP p st' x + (if p it.e then seg it.n slots x else 0) ≤ freeP p st x := by
      intro p x
      have e1 := allocsCover_change p ha g1 x
      rw [freeP_eq, freeP_eq, g2, g3]
      have e2 := recCover_upd p (st.allocs a).recycler hts.2 rest x
      have e3 := pickItem_cover p hp t' x
      have e4 := segE_le (p := p) (it := it) (x := x) hts.1
      have e5 : recCover p (st'.allocs a).recycler x ≤
          recCover p (upd (st.allocs a).recycler t' rest) x + segE p ⟨it.n + slots, it.e⟩ (t' - slots) x := by
        rw [g7]
        split
        · have := recCover_upd p (upd (st.allocs a).recycler t' rest) (t := t' - slots) (by omega)
            (upd (st.allocs a).recycler t' rest (t' - slots) ++ [⟨it.n + slots, it.e⟩]) x
          rw [listCover_append] at this
          omega
        · omega
      unfold allocCover at e1
      have e6 : bumpCover (st'.allocs a) x = bumpCover (st.allocs a) x := by
        unfold bumpCover; rw [g4, g5]
      omega
    refine ⟨?_, ?_, ?_, ?_, hit.1, ?_, ?_⟩
    · subst hst'
      exact ⟨fun _ _ => rfl, rfl, rfl, rfl, rfl, rfl, rfl, rfl, g1, by simp, by simp, Nat.le_refl _, Nat.le_refl _,
        fun h => h, fun h => h⟩
    · intro p hpe x
      have := hcov p x
      rwa [if_pos (hpe _ hperm.2)] at this
    · intro p x
      exact Nat.le_trans (Nat.le_add_right _ _) (hcov p x)
    · intro b hb
      rw [g3]
      by_cases hba : b = a
      · subst hba
        refine ⟨by rw [g4]; exact hal.mod8, by rw [g4, g5, g6]; exact hal.bump, ?_⟩
        intro s y hs' hy
        have hbase : ∀ y, y ∈ upd (st.allocs b).recycler t' rest s → y ∈ (st.allocs b).recycler s := by
          intro y hy
          by_cases h : s = t'
          · subst h
            rw [upd_same] at hy
            exact hrest y hy
          · rwa [upd_of_ne _ _ h] at hy
        rw [g7] at hy
        split at hy
        · by_cases h : s = t' - slots
          · rw [h, upd_same] at hy
            rcases List.mem_append.1 hy with hy | hy
            · rw [← h] at hy
              exact hal.items s y hs' (hbase y hy)
            · have : y = ⟨it.n + slots, it.e⟩ := by simpa using hy
              subst this
              rw [blockSlots_eq]
              simp only
              refine ⟨by omega, by omega, by omega⟩
          · rw [upd_of_ne _ _ h] at hy
            exact hal.items s y hs' (hbase y hy)
        · exact hal.items s y hs' (hbase y hy)
      · rw [g1 b hba]
        exact hok b hb
    · rw [g3, blockSlots_eq]; exact hit.2.1
    · rw [blockSlots_eq]; omega
  · exact allocFresh_spec ha (by omega) hs hok

end Radix
