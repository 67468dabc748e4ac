import Verif.MemProof
import Verif.AllocProof
import Verif.LockProof
/-!
# The memory represents a tree: basic steps
-/
namespace Radix
open T

/-- The state represents the tree `t`; `N` counts the slots of memory allocated but not (or no longer) in the tree. -/
structure CoreN (P : Key → Word → Prop) (st : St) (t : T) (N : Nat → Nat) : Prop where
  root : st.root = rootWord t
  repr : t.Repr st.mem
  wf : t.WF P []
  inb : t.InBlocks st.baNext
  nb : st.nblocks ≤ maxBlockCount
  sep : ∀ x, t.cover x + N x + freeCover st x ≤ 1
  ok : ∀ b, b < st.nalloc → AllocOK st.baNext (st.allocs b)
  zero : st.mem 0 = 0
  n0 : N 0 = 0

/-- The state represents the tree `t`. -/
abbrev Core (P : Key → Word → Prop) (st : St) (t : T) : Prop := CoreN P st t (fun _ => 0)

theorem St.baNext_le (st : St) : st.baNext ≤ st.nblocks := by
  unfold St.nblocks; split <;> omega

theorem CoreN.bn {P st t N} (h : CoreN P st t N) : st.baNext ≤ maxBlockCount := Nat.le_trans st.baNext_le h.nb

theorem segE_le_true (p : Nat → Bool) (it : Item) (t x : Nat) : segE p it t x ≤ segE (fun _ => true) it t x := by
  unfold segE; split <;> simp

theorem sum_map_mono {α : Type} {f g : α → Nat} (l : List α) (h : ∀ a ∈ l, f a ≤ g a) : (l.map f).sum ≤ (l.map g).sum := by
  induction l with
  | nil => simp
  | cons a l ih =>
    simp only [List.map_cons, List.sum_cons]
    have h1 := h a (by simp)
    have h2 := ih fun b hb => h b (by simp [hb])
    omega

theorem freeP_mono {p q : Nat → Bool} (hpq : ∀ e, p e = true → q e = true) (st : St) (x : Nat) :
    freeP p st x ≤ freeP q st x := by
  unfold freeP
  apply Nat.add_le_add_right
  apply sum_map_mono
  intro a _
  unfold allocCover
  apply Nat.add_le_add_left
  unfold recCover
  apply sum_map_mono
  intro t _
  unfold listCover
  apply sum_map_mono
  intro it _
  unfold segE
  by_cases h : p it.e = true
  · simp [h, hpq _ h]
  · simp [h]

theorem freeP_le (p : Nat → Bool) (st : St) (x : Nat) : freeP p st x ≤ freeCover st x :=
  freeP_mono (fun _ _ => rfl) st x

/-- Slots that may be handed out now. -/
def availNow (st : St) : Nat → Bool := fun e => decide (e < st.minReservation)

/-- Effect of allocating and filling memory outside the tree.  `N`, `N'`: memory held before and after. -/
structure AllocEff (a : Nat) (st st' : St) (N N' : Nat → Nat) : Prop where
  root : st'.root = st.root
  rootLock : st'.rootLock = st.rootLock
  locks : st'.locks = st.locks
  epoch : st'.epoch = st.epoch
  resv : st'.resv = st.resv
  nalloc : st'.nalloc = st.nalloc
  live : st'.live = st.live
  other : ∀ b, b ≠ a → st'.allocs b = st.allocs b
  items : (st'.allocs a).itemCounter = (st.allocs a).itemCounter
  baNext : st.baNext ≤ st'.baNext
  nblocks : st.nblocks ≤ st'.nblocks
  nbmax : st.nblocks ≤ maxBlockCount → st'.nblocks ≤ maxBlockCount
  zero : st.mem 0 = 0 → st'.mem 0 = 0
  mem : ∀ x, freeP (availNow st) st x = 0 → st'.mem x = st.mem x
  mono : ∀ (p : Nat → Bool) x, freeP p st' x ≤ freeP p st x
  cov : ∀ x, freeCover st' x + N' x ≤ freeCover st x + N x
  /-- what is newly held was available -/
  avail : ∀ x, freeP (availNow st) st' x + N' x ≤ freeP (availNow st) st x + N x
  ok : ∀ b, b < st.nalloc → AllocOK st'.baNext (st'.allocs b)
  n0 : N' 0 = 0

theorem minReservation_congr {st st' : St} (h1 : st'.resv = st.resv) (h2 : st'.nalloc = st.nalloc) :
    st'.minReservation = st.minReservation := by
  unfold St.minReservation; rw [h1, h2]

theorem availNow_congr {st st' : St} (h1 : st'.resv = st.resv) (h2 : st'.nalloc = st.nalloc) :
    availNow st' = availNow st := by
  unfold availNow; rw [minReservation_congr h1 h2]

theorem AllocEff.refl {a : Nat} {st : St} {N : Nat → Nat}
    (hok : ∀ b, b < st.nalloc → AllocOK st.baNext (st.allocs b)) (h0 : N 0 = 0) : AllocEff a st st N N :=
  ⟨rfl, rfl, rfl, rfl, rfl, rfl, rfl, fun _ _ => rfl, rfl, Nat.le_refl _, Nat.le_refl _, fun h => h, fun h => h,
    fun _ _ => rfl, fun _ _ => Nat.le_refl _, fun _ => Nat.le_refl _, fun _ => Nat.le_refl _, hok, h0⟩

theorem AllocEff.trans {a : Nat} {s1 s2 s3 : St} {N1 N2 N3 : Nat → Nat} (h : AllocEff a s1 s2 N1 N2)
    (h' : AllocEff a s2 s3 N2 N3) : AllocEff a s1 s3 N1 N3 where
  root := h'.root.trans h.root
  rootLock := h'.rootLock.trans h.rootLock
  locks := h'.locks.trans h.locks
  epoch := h'.epoch.trans h.epoch
  resv := h'.resv.trans h.resv
  nalloc := h'.nalloc.trans h.nalloc
  live := h'.live.trans h.live
  other b hb := (h'.other b hb).trans (h.other b hb)
  items := h'.items.trans h.items
  baNext := Nat.le_trans h.baNext h'.baNext
  nblocks := Nat.le_trans h.nblocks h'.nblocks
  nbmax hm := h'.nbmax (h.nbmax hm)
  zero hz := h'.zero (h.zero hz)
  mem x h1 := by
    have e := availNow_congr h.resv h.nalloc
    have h3 := h.mono (availNow s1) x
    have h4 := h'.mem x (by rw [e]; omega)
    rw [h4, h.mem x h1]
  mono p x := Nat.le_trans (h'.mono p x) (h.mono p x)
  cov x := Nat.le_trans (h'.cov x) (h.cov x)
  avail x := by
    have e := availNow_congr h.resv h.nalloc
    have h1 := h'.avail x
    rw [e] at h1
    exact Nat.le_trans h1 (h.avail x)
  ok b hb := h'.ok b (by rw [h.nalloc]; exact hb)
  n0 := h'.n0

/-- Writing to memory that was just allocated. -/
theorem AllocEff.fill {a : Nat} {st st1 : St} {N S : Nat → Nat} {m : Mem}
    (h : AllocEff a st st1 N (fun x => N x + S x)) (hm : ∀ x, S x = 0 → m x = st1.mem x) :
    AllocEff a st { st1 with mem := m } N (fun x => N x + S x) :=
  { h with
    zero := fun hz => by
      have : N 0 + S 0 = 0 := h.n0
      show m 0 = 0
      rw [hm 0 (by omega)]
      exact h.zero hz
    mem := fun x hx => by
      have h1 := h.avail x
      show m x = st.mem x
      rw [hm x (by omega)]
      exact h.mem x hx
    mono := h.mono
    cov := h.cov
    avail := h.avail }

theorem AllocEff.core {P a st st' t N N'} (h : AllocEff a st st' N N') (hc : CoreN P st t N) : CoreN P st' t N' where
  root := h.root.trans hc.root
  repr := hc.repr.congr fun x hx => by
    have := hc.sep x
    have := freeP_le (availNow st) st x
    exact h.mem x (by omega)
  wf := hc.wf
  inb := hc.inb.mono h.baNext
  nb := h.nbmax hc.nb
  sep x := by have := hc.sep x; have := h.cov x; omega
  ok b hb := h.ok b (by rw [← h.nalloc]; exact hb)
  zero := h.zero hc.zero
  n0 := h.n0

/-- Position of a new node. -/
structure NewPos (st : St) (n slots : Nat) : Prop where
  pos : 0 < n
  blk : n / blockSlots < st.baNext
  fit : n % blockSlots + slots ≤ blockSlots

theorem NewPos.mono {st st' : St} {n slots : Nat} (h : NewPos st n slots) (hb : st.baNext ≤ st'.baNext) :
    NewPos st' n slots := ⟨h.pos, Nat.lt_of_lt_of_le h.blk hb, h.fit⟩

theorem seg_zero {n slots : Nat} (h : 0 < n) : seg n slots 0 = 0 := by
  unfold seg; rw [if_neg (by omega)]

theorem NewNodeSpec.eff {a slots st st' n N} (h : NewNodeSpec a slots st st' n) (h0 : N 0 = 0) :
    AllocEff a st st' N (fun x => N x + seg n slots x) where
  root := h.frame.root
  rootLock := h.frame.rootLock
  locks := h.frame.locks
  epoch := h.frame.epoch
  resv := h.frame.resv
  nalloc := h.frame.nalloc
  live := h.frame.live
  other := h.frame.other
  items := h.frame.items
  baNext := h.frame.baNext
  nblocks := h.frame.nblocks
  nbmax := h.frame.nbmax
  zero := h.frame.zero
  mem x hx := by
    apply h.frame.mem
    unfold freeP at hx
    apply Nat.lt_of_not_le
    intro hle
    rw [if_pos hle] at hx
    omega
  mono := h.mono
  cov x := by have := h.free x; omega
  avail x := by
    have := h.cover (availNow st) (fun e he => by simp [availNow, he]) x
    omega
  ok := h.ok
  n0 := by simp [h0, seg_zero h.pos]

theorem nodeData_of_blk {st : St} {n : Nat} (h : n / blockSlots < st.baNext) :
    st.nodeData n = .ok ⟨n, blockSlots - n % blockSlots⟩ := by
  unfold St.nodeData
  rw [if_pos (Nat.lt_of_lt_of_le h st.baNext_le)]

theorem maxKeyLen_eq : maxKeyLen = 2000000 := rfl

theorem prefixSlots_lt {n : Nat} (h : n < maxKeyLen) : prefixSlots n + 256 + 1 < blockSlots := by
  unfold prefixSlots
  rw [maxKeyLen_eq] at h
  rw [blockSlots_eq]
  split <;> omega

/-- `allocateNode`. -/
theorem allocNode_spec {P st t M a count plen} (hc : CoreN P st t M) (ha : a < st.nalloc) (h2 : 2 ≤ count)
    (h3 : count ≤ 256) (hp : plen < maxKeyLen) :
    st.allocNode a count plen = .error .noBlocks ∨
    ∃ n st', st.allocNode a count plen = .ok (n, ⟨n, blockSlots - n % blockSlots⟩, st') ∧
      (∀ N : Nat → Nat, N 0 = 0 → AllocEff a st st' N (fun x => N x + seg n (count + prefixSlots plen) x)) ∧
      NewPos st' n (count + prefixSlots plen) := by
  have hlt := prefixSlots_lt hp
  unfold St.allocNode
  rcases newNode_spec (slots := count + prefixSlots plen) ha (by omega) (by omega) hc.ok with h | ⟨n, st', h, hs⟩
  · left; rw [h]; rfl
  · right
    refine ⟨n, st', ?_, fun N h0 => hs.eff h0, ⟨hs.pos, hs.blk, hs.fit⟩⟩
    rw [h]
    simp only [bind, Except.bind]
    rw [nodeData_of_blk hs.blk]
    rfl

/-- `allocateNodeWithPrefix`. -/
theorem allocNodeP_spec {P st t M a count} {pfx : List UInt8} (hc : CoreN P st t M) (ha : a < st.nalloc) (h2 : 2 ≤ count)
    (h3 : count ≤ 256) (hp : pfx.length < maxKeyLen) :
    st.allocNodeP a count pfx = .error .noBlocks ∨
    ∃ n st', st.allocNodeP a count pfx = .ok (n, ⟨n + prefixSlots pfx.length,
        blockSlots - n % blockSlots - prefixSlots pfx.length⟩, st') ∧
      (∀ N : Nat → Nat, N 0 = 0 → AllocEff a st st' N (fun x => N x + seg n (count + prefixSlots pfx.length) x)) ∧
      NewPos st' n (count + prefixSlots pfx.length) ∧ PrefixMem st'.mem n pfx := by
  have hlt := prefixSlots_lt hp
  unfold St.allocNodeP
  rcases newNode_spec (slots := count + prefixSlots pfx.length) ha (by omega) (by omega) hc.ok with h | ⟨n, st', h, hs⟩
  · left; rw [h]; rfl
  · right
    rw [h]
    simp only [bind, Except.bind]
    rw [nodeData_of_blk hs.blk]
    have hfit := hs.fit
    by_cases hpl : pfx.length > 0
    · simp only [if_pos hpl]
      have hne : pfx ≠ [] := List.length_pos_iff.1 hpl
      obtain ⟨m', e1, e2, e3⟩ := storePrefix_ok (m := st'.mem) (dst := ⟨n, blockSlots - n % blockSlots⟩) (pfx := pfx)
        (by simp only; omega) hne
      rw [e1]
      simp only [Slice.drop]
      rw [if_pos (by omega)]
      refine ⟨n, { st' with mem := m' }, rfl, ?_, ⟨hs.pos, hs.blk, hs.fit⟩, e2⟩
      intro N h0
      have heff := hs.eff (N := N) h0
      refine heff.fill ?_
      intro x hx
      apply e3
      simp only at hx ⊢
      unfold seg at hx
      split at hx <;> omega
    · simp only [if_neg hpl]
      have : pfx = [] := List.length_eq_zero_iff.1 (by omega)
      subst this
      refine ⟨n, st', ?_, fun N h0 => hs.eff h0, ⟨hs.pos, hs.blk, hs.fit⟩, PrefixMem_nil _ _⟩
      simp [prefixSlots, pure, Except.pure]

/-! ## Recycling -/

/-- Number of live objects according to the counters. -/
def St.total (st : St) : Int := st.live + ((List.range st.nalloc).map fun a => (st.allocs a).itemCounter).sum

theorem sum_map_upd_int {f : Nat → Int} {c : Nat} {v : Int} (l : List Nat) (hn : l.Nodup) (hc : c ∈ l) :
    (l.map (upd f c v)).sum + f c = (l.map f).sum + v := by
  induction l with
  | nil => simp at hc
  | cons b l ih =>
    rw [List.nodup_cons] at hn
    simp only [List.map_cons, List.sum_cons]
    by_cases hb : b = c
    · subst hb
      have : l.map (upd f b v) = l.map f := by
        apply List.map_congr_left
        intro x hx
        exact upd_of_ne _ _ (fun e => hn.1 (e ▸ hx))
      rw [this, upd_same]
      omega
    · rw [upd_of_ne _ _ hb]
      have := ih hn.2 (by simpa [Ne.symm hb] using hc)
      omega

theorem total_change {st st' : St} {a : Nat} (ha : a < st.nalloc) (hn : st'.nalloc = st.nalloc)
    (ho : ∀ b, b ≠ a → (st'.allocs b).itemCounter = (st.allocs b).itemCounter) :
    st'.total + st.live + (st.allocs a).itemCounter = st.total + st'.live + (st'.allocs a).itemCounter := by
  unfold St.total
  rw [hn]
  have h := sum_map_upd_int (f := fun b => (st.allocs b).itemCounter) (v := (st'.allocs a).itemCounter)
    (List.range st.nalloc) List.nodup_range (List.mem_range.2 ha)
  have e : (List.range st.nalloc).map (fun b => (st'.allocs b).itemCounter) =
      (List.range st.nalloc).map (upd (fun b => (st.allocs b).itemCounter) a (st'.allocs a).itemCounter) := by
    apply List.map_congr_left
    intro b _
    by_cases hb : b = a
    · subst hb; simp
    · rw [upd_of_ne _ _ hb, ho b hb]
  rw [e]
  omega

/-- Effect of `recycle` of `slots` slots at `n`. -/
structure RecEff (a n slots : Nat) (st st' : St) : Prop where
  mem : st'.mem = st.mem
  root : st'.root = st.root
  rootLock : st'.rootLock = st.rootLock
  locks : st'.locks = st.locks
  resv : st'.resv = st.resv
  nalloc : st'.nalloc = st.nalloc
  baNext : st'.baNext = st.baNext
  baReady : st'.baReady = st.baReady
  epoch : st.epoch ≤ st'.epoch
  total : st'.total = st.total
  free : ∀ (p : Nat → Bool) x, freeP p st' x ≤ freeP p st x + (if p st.epoch then seg n slots x else 0)
  ok : ∀ b, b < st.nalloc → AllocOK st'.baNext (st'.allocs b)

theorem RecEff.skip {a n slots st} (hok : ∀ b, b < st.nalloc → AllocOK st.baNext (st.allocs b)) :
    RecEff a n slots st st :=
  ⟨rfl, rfl, rfl, rfl, rfl, rfl, rfl, rfl, Nat.le_refl _, rfl, fun _ _ => Nat.le_add_right _ _, hok⟩

theorem recycle_aux {a n slots} {st st' : St} (ha : a < st.nalloc) (hs : slots < recyclerLen)
    (hok : ∀ b, b < st.nalloc → AllocOK st.baNext (st.allocs b)) (hpos : NewPos st n slots)
    (h1 : st'.mem = st.mem) (h2 : st'.root = st.root) (h3 : st'.rootLock = st.rootLock) (h4 : st'.locks = st.locks)
    (h5 : st'.resv = st.resv) (h6 : st'.nalloc = st.nalloc) (h7 : st'.baNext = st.baNext)
    (h8 : st'.baReady = st.baReady) (h9 : st.epoch ≤ st'.epoch)
    (h10 : ∀ b, b ≠ a → st'.allocs b = st.allocs b)
    (h11 : st'.live + (st'.allocs a).itemCounter = st.live + (st.allocs a).itemCounter)
    (h12 : (st'.allocs a).recycler =
      upd (st.allocs a).recycler slots ((st.allocs a).recycler slots ++ [⟨n, st.epoch⟩]))
    (h13 : (st'.allocs a).nextFree = (st.allocs a).nextFree) (h14 : (st'.allocs a).offset = (st.allocs a).offset)
    (h15 : (st'.allocs a).block = (st.allocs a).block) : RecEff a n slots st st' := by
  refine ⟨h1, h2, h3, h4, h5, h6, h7, h8, h9, ?_, ?_, ?_⟩
  · have := total_change ha h6 (fun b hb => by rw [h10 b hb])
    omega
  · intro p x
    have e1 := allocsCover_change p ha h10 x
    have e2 := recCover_upd p (st.allocs a).recycler hs ((st.allocs a).recycler slots ++ [⟨n, st.epoch⟩]) x
    rw [listCover_append] at e2
    rw [freeP_eq, freeP_eq, h6, h7]
    unfold allocCover at e1
    rw [h12] at e1
    have e6 : bumpCover (st'.allocs a) x = bumpCover (st.allocs a) x := by
      unfold bumpCover; rw [h13, h14]
    have e7 : segE p ⟨n, st.epoch⟩ slots x = if p st.epoch then seg n slots x else 0 := rfl
    omega
  · intro b hb
    rw [h7]
    by_cases hba : b = a
    · subst hba
      refine ⟨by rw [h13]; exact (hok b hb).mod8, by rw [h13, h14, h15]; exact (hok b hb).bump, ?_⟩
      intro t it ht hit
      rw [h12] at hit
      by_cases h : t = slots
      · subst h
        rw [upd_same] at hit
        rcases List.mem_append.1 hit with hit | hit
        · exact (hok b hb).items t it ht hit
        · have : it = ⟨n, st.epoch⟩ := by simpa using hit
          subst this
          exact ⟨hpos.pos, hpos.blk, hpos.fit⟩
      · rw [upd_of_ne _ _ h] at hit
        exact (hok b hb).items t it ht hit
    · rw [h10 b hba]
      exact hok b hb

theorem recycle_spec {a n slots} {st : St} (ha : a < st.nalloc)
    (hok : ∀ b, b < st.nalloc → AllocOK st.baNext (st.allocs b)) (hpos : NewPos st n slots) :
    (slots = recyclerLen ∧ st.recycle a n slots = .error .index) ∨
    (slots ≠ recyclerLen ∧ ∃ st', st.recycle a n slots = .ok st' ∧ RecEff a n slots st st') := by
  unfold St.recycle
  by_cases h1 : slots > recyclerLen
  · rw [if_pos h1]
    right
    exact ⟨by omega, st, rfl, RecEff.skip hok⟩
  · rw [if_neg h1]
    by_cases h2 : slots < recyclerLen
    · rw [if_pos h2]
      right
      refine ⟨by omega, ?_⟩
      simp only
      split
      · refine ⟨_, rfl, ?_⟩
        refine recycle_aux ha h2 hok hpos rfl rfl rfl rfl rfl rfl rfl rfl ?_ ?_ ?_ ?_ ?_ ?_ ?_
        · simp [St.flushStats]
        · intro b hb; simp [St.flushStats, upd_of_ne _ _ hb]
        · simp [St.flushStats]
        · simp [St.flushStats]
        · simp [St.flushStats]
        · simp [St.flushStats]
        · simp [St.flushStats]
      · refine ⟨_, rfl, ?_⟩
        refine recycle_aux ha h2 hok hpos rfl rfl rfl rfl rfl rfl rfl rfl (Nat.le_refl _) ?_ ?_ ?_ ?_ ?_ ?_
        · intro b hb; simp [upd_of_ne _ _ hb]
        all_goals simp
    · rw [if_neg h2]
      left
      exact ⟨by omega, rfl⟩

theorem RecEff.core {P a n slots st st' t N N'} (h : RecEff a n slots st st') (hc : CoreN P st t N)
    (hN : ∀ x, N' x + seg n slots x ≤ N x) : CoreN P st' t N' where
  root := h.root.trans hc.root
  repr := by rw [h.mem]; exact hc.repr
  wf := hc.wf
  inb := by rw [h.baNext]; exact hc.inb
  nb := by
    have e : st'.nblocks = st.nblocks := by unfold St.nblocks; rw [h.baNext, h.baReady]
    rw [e]; exact hc.nb
  sep x := by
    have h1 := h.free (fun _ => true) x
    have h2 := hc.sep x
    have h3 := hN x
    unfold freeCover at *
    rw [if_pos rfl] at h1
    omega
  ok b hb := h.ok b (by rw [← h.nalloc]; exact hb)
  zero := by rw [h.mem]; exact hc.zero
  n0 := by have := hN 0; have := hc.n0; omega

theorem CoreN.drop {P st t N N'} (hc : CoreN P st t N) (h : ∀ x, N' x ≤ N x) : CoreN P st t N' :=
  { hc with
    sep := fun x => by have := hc.sep x; have := h x; omega
    n0 := by have := h 0; have := hc.n0; omega }

/-! ## Publishing a new subtree -/

/-- The location holding the reference to the hole. -/
def holePtr (C : Ctx) : Ptr :=
  match C.getLast? with
  | none => .root
  | some f => .slot (childSlot f.addr f.pfx f.big f.ch f.c)

/-- The word referring to a tree put in the hole. -/
def holeWord (C : Ctx) (t : T) : Word :=
  match C.getLast? with
  | none => rootWord t
  | some f => wordOf f.c t

/-- Address of the node owning the hole; `0` if the hole is the root. -/
def holeParent (C : Ctx) : Nat :=
  match C.getLast? with
  | none => 0
  | some f => f.addr

/-- Byte of the hole in its node; `0` for the root. -/
def holeByte (C : Ctx) : UInt8 :=
  match C.getLast? with
  | none => 0
  | some f => f.c

/-- The recorded children of the last frame agree with the subtree in the hole. -/
def Norm (C : Ctx) (t : T) : Prop := ∀ f, C.getLast? = some f → f.ch f.c = t

theorem ctx_cases (C : Ctx) : C = [] ∨ ∃ D f, C = D ++ [f] := by
  rcases List.eq_nil_or_concat C with h | ⟨D, f, h⟩
  · exact .inl h
  · exact .inr ⟨D, f, by simpa using h⟩

theorem plug_last {D : Ctx} {f : Frame} {t : T} (h : Norm (D ++ [f]) t) :
    plug (D ++ [f]) t = plug D (.node f.addr f.pfx f.big f.ch) := by
  have := h f (by simp)
  rw [plug_append]
  simp [plug, ← this, upd_self]

/-- Storing the word of a new subtree. -/
theorem CoreN.commit {P st N D} {C : Ctx} {t0 t1 : T} (h : CoreN P st (plug C t0) N) (hn : Norm C t0)
    (hs : ∀ f, C.getLast? = some f → f.big = true ∨ t0.isEmpty = false) (hc : Compat C t0 t1)
    (h1r : t1.Repr st.mem) (h1w : t1.WF P (pathOf C)) (h1b : t1.InBlocks st.baNext)
    (hcov : ∀ x, t1.cover x + D x ≤ t0.cover x + N x) (hD : D 0 = 0) :
    CoreN P (st.store (holePtr C) (holeWord C t1)) (plug C t1) D := by
  have hwf : (plug C t1).WF P [] := WF_plug hc h.wf (by simpa using h1w)
  have hinb : (plug C t1).InBlocks st.baNext := InBlocks_plug hc h.inb h1b
  have hsep : ∀ x, (plug C t1).cover x + D x + freeCover st x ≤ 1 := by
    intro x
    have e1 := cover_plug hc x
    have e2 := h.sep x
    have e3 := hcov x
    omega
  rcases ctx_cases C with rfl | ⟨E, f, rfl⟩
  · exact ⟨rfl, h1r, hwf, hinb, h.nb, hsep, h.ok, h.zero, hD⟩
  · have hf : f.ch f.c = t0 := hn f (by simp)
    have hsf : f.big = true ∨ (f.ch f.c).isEmpty = false := by rw [hf]; exact hs f (by simp)
    have hcf : f.big = true ∨ t1.isEmpty = (f.ch f.c).isEmpty := by rw [hf]; exact hc f (by simp)
    have e0 : plug (E ++ [f]) t0 = plug E (.node f.addr f.pfx f.big f.ch) := plug_last hn
    have e1 : plug (E ++ [f]) t1 = plug E (.node f.addr f.pfx f.big (upd f.ch f.c t1)) := by
      rw [plug_append]; rfl
    have hr := childSlot_range (a := f.addr) (pfx := f.pfx) hsf
    have hat := At_plug E (.node f.addr f.pfx f.big f.ch)
    have hpos := hat.cover_node (x := childSlot f.addr f.pfx f.big f.ch f.c) (by omega) hr.2
    have hp : holePtr (E ++ [f]) = .slot (childSlot f.addr f.pfx f.big f.ch f.c) := by simp [holePtr]
    have hw : holeWord (E ++ [f]) t1 = wordOf f.c t1 := by simp [holeWord]
    rw [hp, hw]
    rw [e0] at h
    have hsep0 := h.sep (childSlot f.addr f.pfx f.big f.ch f.c)
    have hcov0 := hcov (childSlot f.addr f.pfx f.big f.ch f.c)
    have ht0 : t0.cover (childSlot f.addr f.pfx f.big f.ch f.c) = 0 := by
      have h2 := hat.cover_le (childSlot f.addr f.pfx f.big f.ch f.c)
      simp only [T.cover] at h2
      rw [if_pos ⟨by omega, hr.2⟩] at h2
      have h3 := le_sumB (fun c => (f.ch c).cover (childSlot f.addr f.pfx f.big f.ch f.c)) f.c
      simp only [hf] at h3
      omega
    refine ⟨?_, ?_, hwf, hinb, h.nb, hsep, h.ok, ?_, hD⟩
    · rw [e1, rootWord_plug hcf]
      exact h.root
    · rw [e1]
      exact Repr_slot hsf hcf h.repr (fun y => by have := h.sep y; omega) h1r (by omega)
    · have hb := (hat.inBlocks h.inb).1.1
      show upd st.mem _ _ 0 = 0
      rw [upd_of_ne _ _ (by omega)]
      exact h.zero

end Radix
