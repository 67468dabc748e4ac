import Verif.Sys.Budget
/-!
# No memory is lost

At any time each slot belongs to a node of the tree, to an operation, or is free.  Allocation, publication and recycling move slots between
these; here it is shown when they do not drop any.  Slot 0, and the last slots of each block, which are given up when the next request does
not fit, do not count.
-/
set_option autoImplicit false
namespace Radix
open T

/-- Not slot 0, and not one of the last `S` slots of a block. -/
def Inner (S x : Nat) : Prop := x ≠ 0 ∧ x % blockSlots + S < blockSlots

/-- The block an allocator fills. -/
structure BumpOK (al : Alloc) : Prop where
  mod8 : al.nextFree % 8 = 0
  bump : (al.nextFree = blockSize ∧ al.offset = 0) ∨ (al.offset = (if al.block = 0 then 8 else al.block * blockSize) ∧ al.nextFree < blockSize)

theorem AllocOK.bumpOK {n : Nat} {al : Alloc} (h : AllocOK n al) : BumpOK al := by
  refine ⟨h.mod8, ?_⟩
  rcases h.bump with ⟨h1, h2, _⟩ | ⟨_, h1, h2⟩
  · exact .inl ⟨h1, h2⟩
  · exact .inr ⟨h1, h2⟩

def BumpsOK (st : St) : Prop := ∀ a, a < st.nalloc → BumpOK (st.allocs a)

/-- `x` takes `N` from the free memory, and nothing else. -/
def Draws (S : Nat) (st : St) {α : Type} (x : Res α) (f : α → St) (N : α → Nat → Nat) : Prop :=
  BumpsOK st → ∀ r, x = .ok r → BumpsOK (f r) ∧ (f r).nalloc = st.nalloc ∧ ∀ y, Inner S y → freeCover st y ≤ freeCover (f r) y + N r y

/-- The free memory is the same. -/
structure KeepFree (st st' : St) : Prop where
  baNext : st'.baNext = st.baNext
  nalloc : st'.nalloc = st.nalloc
  same : ∀ a, a < st.nalloc → (st'.allocs a).nextFree = (st.allocs a).nextFree ∧ (st'.allocs a).offset = (st.allocs a).offset ∧
    (st'.allocs a).block = (st.allocs a).block ∧ (st'.allocs a).recycler = (st.allocs a).recycler

theorem KeepFree.refl (st : St) : KeepFree st st := ⟨rfl, rfl, fun _ _ => ⟨rfl, rfl, rfl, rfl⟩⟩

theorem KeepFree.trans {a b c : St} (h : KeepFree a b) (h' : KeepFree b c) : KeepFree a c := by
  refine ⟨h'.1.trans h.1, h'.2.trans h.2, fun x hx => ?_⟩
  obtain ⟨a1, a2, a3, a4⟩ := h.3 x hx
  obtain ⟨b1, b2, b3, b4⟩ := h'.3 x (by rw [h.2]; exact hx)
  exact ⟨b1.trans a1, b2.trans a2, b3.trans a3, b4.trans a4⟩

theorem Quiet.free {st st' : St} (h : Quiet st st') : KeepFree st st' :=
  ⟨h.baNext, h.nalloc, fun a _ => by rw [h.allocs]; exact ⟨rfl, rfl, rfl, rfl⟩⟩

theorem KeepFree.cover {st st' : St} (h : KeepFree st st') (x : Nat) : freeCover st' x = freeCover st x := by
  refine freeP_congr _ h.nalloc h.baNext (fun a ha y => ?_) x
  obtain ⟨h1, h2, _, h4⟩ := h.same a ha
  unfold allocCover bumpCover
  rw [h1, h2, h4]

theorem KeepFree.bumps {st st' : St} (h : KeepFree st st') (hb : BumpsOK st) : BumpsOK st' := by
  intro a ha
  rw [h.nalloc] at ha
  obtain ⟨h1, h2, h3, _⟩ := h.same a ha
  refine ⟨by rw [h1]; exact (hb a ha).mod8, ?_⟩
  rw [h1, h2, h3]
  exact (hb a ha).bump

theorem mem_free (st : St) (m : Mem) : KeepFree st { st with mem := m } := ⟨rfl, rfl, fun _ _ => ⟨rfl, rfl, rfl, rfl⟩⟩

/-- Only allocator `a` has changed. -/
theorem free_change {st st' : St} {a : Nat} (ha : a < st.nalloc) (hn : st'.nalloc = st.nalloc) (ho : ∀ b, b ≠ a → st'.allocs b = st.allocs b)
    (x : Nat) :
    freeCover st' x + (bumpCover (st.allocs a) x + recCover (fun _ => true) (st.allocs a).recycler x) +
        (if st.baNext * blockSlots ≤ x then 1 else 0) =
      freeCover st x + (bumpCover (st'.allocs a) x + recCover (fun _ => true) (st'.allocs a).recycler x) +
        (if st'.baNext * blockSlots ≤ x then 1 else 0) := by
  have e1 := allocsCover_change (fun _ => true) ha ho x
  unfold freeCover
  rw [freeP_eq, freeP_eq, hn]
  unfold allocCover at e1
  omega

/-- `bumpCover`, with the fields it depends on. -/
def bumpAt (off nf y : Nat) : Nat := if (off + nf) / 8 ≤ y ∧ y < off / 8 + (blockSlots - 1) then 1 else 0

theorem draws_of {S : Nat} {st st' : St} {a n slots : Nat} (ha : a < st.nalloc) (hb : BumpsOK st) (hn : st'.nalloc = st.nalloc)
    (ho : ∀ b, b ≠ a → st'.allocs b = st.allocs b) {off nf blk bn : Nat} {rr : Nat → List Item} (h1 : (st'.allocs a).offset = off)
    (h2 : (st'.allocs a).nextFree = nf) (h3 : (st'.allocs a).block = blk) (h4 : (st'.allocs a).recycler = rr) (h5 : st'.baNext = bn)
    (hbump : nf % 8 = 0 ∧ ((nf = blockSize ∧ off = 0) ∨ (off = (if blk = 0 then 8 else blk * blockSize) ∧ nf < blockSize)))
    (h : ∀ y, Inner S y → bumpAt (st.allocs a).offset (st.allocs a).nextFree y + recCover (fun _ => true) (st.allocs a).recycler y +
        (if st.baNext * blockSlots ≤ y then 1 else 0) ≤
      bumpAt off nf y + recCover (fun _ => true) rr y + (if bn * blockSlots ≤ y then 1 else 0) + seg n slots y) :
    BumpsOK st' ∧ st'.nalloc = st.nalloc ∧ ∀ y, Inner S y → freeCover st y ≤ freeCover st' y + seg n slots y := by
  refine ⟨?_, hn, fun y hy => ?_⟩
  · intro b hb'
    rw [hn] at hb'
    by_cases hba : b = a
    · subst hba
      refine ⟨by rw [h2]; exact hbump.1, ?_⟩
      rw [h1, h2, h3]; exact hbump.2
    · rw [ho b hba]; exact hb b hb'
  · have e0 := free_change ha hn ho y
    have e1 := h y hy
    have e2 : bumpCover (st.allocs a) y = bumpAt (st.allocs a).offset (st.allocs a).nextFree y := rfl
    have e3 : bumpCover (st'.allocs a) y = bumpAt off nf y := by rw [← h1, ← h2]; rfl
    rw [h4, e3, e2, h5] at e0
    omega

theorem newNode_draws {S : Nat} {st : St} {a slots : Nat} (ha : a < st.nalloc) (hs : slots ≤ S) (h1S : 1 ≤ S) (hS : S + 1 < blockSlots) :
    Draws S st (st.newNode a slots) (·.2) (fun r y => seg r.1 slots y) := by
  intro hb r h
  have hal := hb a ha
  have h8 := hal.mod8
  have hbs : blockSize = 2097152 := rfl
  unfold St.newNode at h
  simp only at h
  split at h
  · rename_i t it rest hf
    obtain ⟨t', ht', hp⟩ := List.exists_of_findSome?_eq_some hf
    obtain ⟨q, hp, he⟩ := Option.map_eq_some_iff.1 hp
    obtain ⟨rfl, rfl⟩ := Prod.mk.inj he
    have hts : (t' = slots ∨ slots + 2 ≤ t') ∧ t' < recyclerLen := by
      unfold sizesToTry at ht'
      split at ht'
      · rcases List.mem_cons.1 ht' with rfl | h
        · exact ⟨.inl rfl, by assumption⟩
        · have := List.mem_range'_1.1 h
          exact ⟨.inr (by omega), by omega⟩
      · simp at ht'
    cases h
    refine draws_of (off := (st.allocs a).offset) (nf := (st.allocs a).nextFree) (blk := (st.allocs a).block) (bn := st.baNext)
      ha hb rfl (fun b hb => upd_of_ne _ _ hb) (by simp only [upd_same]) (by simp only [upd_same])
      (by simp only [upd_same]) (by simp only [upd_same]; rfl) rfl ⟨h8, hal.bump⟩ (fun y hy => ?_)
    simp only
    have e1 := recCover_upd (fun _ => true) (st.allocs a).recycler hts.2 rest y
    have e2 := pickItem_cover (fun _ => true) hp t' y
    have e3 : segE (fun _ => true) it t' y = seg it.n t' y := rfl
    by_cases hge : t' - slots ≥ 2
    · rw [if_pos hge]
      have e4 := recCover_upd (fun _ => true) (upd (st.allocs a).recycler t' rest) (t := t' - slots) (by omega)
        (upd (st.allocs a).recycler t' rest (t' - slots) ++ [⟨it.n + slots, it.e⟩]) y
      rw [listCover_append] at e4
      have e5 : segE (fun _ => true) ⟨it.n + slots, it.e⟩ (t' - slots) y = seg (it.n + slots) (t' - slots) y := rfl
      have e6 := seg_le (n := it.n) (s := slots) (t := t') (x := y) (by omega)
      omega
    · rw [if_neg hge]
      have : t' = slots := by omega
      subst this
      omega
  · unfold St.allocFresh at h
    simp only at h
    split at h
    · rename_i hge
      obtain ⟨s1, h1, h⟩ := bind_ok h
      have e1 : s1.baNext = st.baNext ∧ s1.nalloc = st.nalloc ∧ s1.allocs = st.allocs := by
        unfold St.blockStep at h1
        repeat' split at h1
        all_goals first | (cases h1; exact ⟨rfl, rfl, rfl⟩) | cases h1
      obtain ⟨e1, e2, e3⟩ := e1
      cases h
      rw [blockSlots_eq] at hS
      refine draws_of (off := if st.baNext * blockSize = 0 then 8 else st.baNext * blockSize) (nf := slots * 8) (blk := st.baNext)
        (bn := st.baNext + 1) (rr := (st.allocs a).recycler) ha hb e2 (fun b hb => by simp only [upd_of_ne _ _ hb, e3])
        (by simp only [upd_same, e1]) (by simp only [upd_same]) (by simp only [upd_same, e1]) (by simp only [upd_same]) (by simp only [e1])
        ⟨by omega, .inr ⟨?_, by rw [hbs]; omega⟩⟩ (fun y hy => ?_)
      · rw [hbs]
        split <;> split <;> omega
      · obtain ⟨hy0, hy1⟩ := hy
        rw [blockSlots_eq] at hy1
        have e5 : bumpAt (st.allocs a).offset (st.allocs a).nextFree y = 0 := by
          unfold bumpAt
          rw [if_neg]
          rw [blockSlots_eq]
          rw [hbs] at hge
          rcases hal.bump with ⟨b1, b2⟩ | ⟨b1, b2⟩
          · rw [b1, b2, hbs]; omega
          · rw [b1, hbs]
            split
            · omega
            · omega
        rw [e5, e1]
        have e6 : (if st.baNext * blockSlots ≤ y then 1 else 0) ≤
            bumpAt (if st.baNext * blockSize = 0 then 8 else st.baNext * blockSize) (slots * 8) y +
            seg ((if st.baNext * blockSize = 0 then 8 else st.baNext * blockSize) / 8) slots y +
            (if (st.baNext + 1) * blockSlots ≤ y then 1 else 0) := by
          unfold bumpAt seg
          rw [hbs, blockSlots_eq]
          split <;> split <;> split <;> split <;> split <;> omega
        simp only
        omega
    · rename_i hlt
      cases h
      rw [blockSlots_eq] at hS
      rw [hbs] at hlt
      obtain ⟨b1, b2⟩ : (st.allocs a).offset = (if (st.allocs a).block = 0 then 8 else (st.allocs a).block * blockSize) ∧
          (st.allocs a).nextFree < blockSize := by
        rcases hal.bump with ⟨b1, b2⟩ | h
        · rw [hbs] at b1; omega
        · exact h
      refine draws_of (off := (st.allocs a).offset) (nf := (st.allocs a).nextFree + slots * 8) (blk := (st.allocs a).block)
        (bn := st.baNext) (rr := (st.allocs a).recycler) ha hb rfl (fun b hb => upd_of_ne _ _ hb)
        (by simp only [upd_same]) (by simp only [upd_same]) (by simp only [upd_same]) (by simp only [upd_same]) rfl
        ⟨by omega, .inr ⟨b1, by rw [hbs]; omega⟩⟩ (fun y hy => ?_)
      have hoff : (st.allocs a).offset % 8 = 0 := by
        rw [b1, hbs]; split <;> omega
      have e5 : bumpAt (st.allocs a).offset (st.allocs a).nextFree y ≤ bumpAt (st.allocs a).offset ((st.allocs a).nextFree + slots * 8) y +
          seg (((st.allocs a).offset + (st.allocs a).nextFree) / 8) slots y := by
        unfold bumpAt seg
        rw [blockSlots_eq]
        split <;> split <;> split <;> omega
      simp only
      omega

theorem allocNode_draws {S : Nat} {st : St} {a count plen : Nat} (ha : a < st.nalloc) (hs : count + prefixSlots plen ≤ S) (h1S : 1 ≤ S)
    (hS : S + 1 < blockSlots) : Draws S st (st.allocNode a count plen) (·.2.2) (fun r y => seg r.1 (count + prefixSlots plen) y) := by
  intro hb r h
  unfold St.allocNode at h
  obtain ⟨⟨n1, st1⟩, h1, h⟩ := bind_ok h
  have h2 := newNode_draws ha hs h1S hS hb _ h1
  obtain ⟨d1, _, h⟩ := bind_ok h
  cases h
  exact h2

theorem allocNodeP_draws {S : Nat} {st : St} {a count : Nat} {pfx : List UInt8} (ha : a < st.nalloc)
    (hs : count + prefixSlots pfx.length ≤ S) (h1S : 1 ≤ S) (hS : S + 1 < blockSlots) :
    Draws S st (st.allocNodeP a count pfx) (·.2.2) (fun r y => seg r.1 (count + prefixSlots pfx.length) y) := by
  intro hb r h
  unfold St.allocNodeP at h
  obtain ⟨⟨n1, st1⟩, h1, h⟩ := bind_ok h
  have h2 := newNode_draws ha hs h1S hS hb _ h1
  obtain ⟨d1, _, h⟩ := bind_ok h
  split at h
  · obtain ⟨m, _, h⟩ := bind_ok h
    obtain ⟨d2, _, h⟩ := bind_ok h
    cases h
    exact ⟨h2.1, h2.2.1, h2.2.2⟩
  · cases h
    exact h2

theorem seg_mono {n s t y : Nat} (h : s ≤ t) : seg n s y ≤ seg n t y := by
  unfold seg
  split <;> split <;> omega

/-- An update takes the memory of its new nodes, and nothing else. -/
theorem buildU_draws {S L : Nat} {st : St} {a : Nat} {op : UpdOp} {fetched : Key} {isMatch : Bool} {value : Word} (ha : a < st.nalloc)
    (hL : 256 + prefixSlots L ≤ S) (hS : S + 1 < blockSlots) (hc : op.kind.isRoot = false → op.count ≤ 256 ∧ op.pfx.length ≤ L)
    (hk : op.key.length ≤ L) : Draws S st (buildU st a op fetched isMatch value) (·.2) (fun r y => r.1.priv y) := by
  have fit : ∀ {c l : Nat}, c ≤ 256 → l ≤ L → c + prefixSlots l ≤ S := fun h1 h2 => by have := prefixSlots_mono h2; omega
  have two : ∀ {l : Nat}, l ≤ L → 2 + prefixSlots l ≤ S := fun h => fit (by omega) h
  have h1S : 1 ≤ S := by omega
  have one : ∀ {l : List UInt8} {k : Nat} {n : Nat} {d : Slice} {st1 : St} {m : Mem} {cm : Commit}, BumpsOK st →
      st.allocNodeP a k l = .ok (n, d, st1) → k + prefixSlots l.length ≤ S → ∀ {w}, cm.nodes = [(n, w)] → k + prefixSlots l.length ≤ w →
      BumpsOK { st1 with mem := m } ∧ ({ st1 with mem := m } : St).nalloc = st.nalloc ∧
        ∀ y, Inner S y → freeCover st y ≤ freeCover { st1 with mem := m } y + cm.priv y := by
    intro l k n d st1 m cm hb h hs w hn hw
    obtain ⟨g1, g2, g3⟩ := allocNodeP_draws ha hs h1S hS hb _ h
    refine ⟨(mem_free _ _).bumps g1, g2, fun y hy => ?_⟩
    rw [(mem_free st1 m).cover]
    have := g3 y hy
    have := seg_mono (n := n) (y := y) hw
    simp only [Commit.priv, hn, List.map_cons, List.map_nil, List.sum_cons, List.sum_nil, Nat.add_zero]
    simp only at *
    omega
  have oneN : ∀ {l : Nat} {k : Nat} {n : Nat} {d : Slice} {st1 : St} {m : Mem} {cm : Commit}, BumpsOK st →
      st.allocNode a k l = .ok (n, d, st1) → k + prefixSlots l ≤ S → ∀ {w}, cm.nodes = [(n, w)] → k + prefixSlots l ≤ w →
      BumpsOK { st1 with mem := m } ∧ ({ st1 with mem := m } : St).nalloc = st.nalloc ∧
        ∀ y, Inner S y → freeCover st y ≤ freeCover { st1 with mem := m } y + cm.priv y := by
    intro l k n d st1 m cm hb h hs w hn hw
    obtain ⟨g1, g2, g3⟩ := allocNode_draws ha hs h1S hS hb _ h
    refine ⟨(mem_free _ _).bumps g1, g2, fun y hy => ?_⟩
    rw [(mem_free st1 m).cover]
    have := g3 y hy
    have := seg_mono (n := n) (y := y) hw
    simp only [Commit.priv, hn, List.map_cons, List.map_nil, List.sum_cons, List.sum_nil, Nat.add_zero]
    simp only at *
    omega
  have take : ∀ (l : List UInt8) (n : Nat), prefixSlots (l.take n).length ≤ prefixSlots n := fun l n =>
    prefixSlots_mono (by rw [List.length_take]; exact Nat.min_le_left _ _)
  intro hb r h
  unfold buildU at h
  split at h
  · cases h
    exact ⟨hb, rfl, fun _ _ => Nat.le_add_right _ _⟩
  · obtain ⟨⟨n, d, st1⟩, h1, h⟩ := bind_ok h
    obtain ⟨m, _, h⟩ := bind_ok h
    cases h
    exact oneN hb h1 (two (Nat.zero_le _)) rfl (by decide)
  · split at h
    · cases h
      exact ⟨hb, rfl, fun _ _ => Nat.le_add_right _ _⟩
    · obtain ⟨_, _, h⟩ := bind_ok h
      obtain ⟨⟨n, d, st1⟩, h1, h⟩ := bind_ok h
      obtain ⟨_, _, h⟩ := bind_ok h
      obtain ⟨_, _, h⟩ := bind_ok h
      obtain ⟨m, _, h⟩ := bind_ok h
      cases h
      exact one hb h1 (two (by simp; omega)) rfl (Nat.add_le_add_left (take _ _) _)
  · rename_i e
    obtain ⟨hc, hp⟩ := hc (by rw [e]; rfl)
    obtain ⟨_, _, h⟩ := bind_ok h
    obtain ⟨_, _, h⟩ := bind_ok h
    obtain ⟨⟨n1, d1, st1⟩, h1, h⟩ := bind_ok h
    obtain ⟨_, _, h⟩ := bind_ok h
    obtain ⟨ws, _, h⟩ := bind_ok h
    obtain ⟨⟨n2, d2, st2⟩, h2, h⟩ := bind_ok h
    obtain ⟨m, _, h⟩ := bind_ok h
    cases h
    obtain ⟨g1, g2, g3⟩ := allocNodeP_draws ha (fit hc (by simp; omega)) h1S hS hb _ h1
    obtain ⟨k1, k2, k3⟩ := allocNodeP_draws (S := S) (by show a < st1.nalloc; rw [← g2] at ha; exact ha) (two (by simp; omega)) h1S hS
      ((mem_free _ _).bumps g1) _ h2
    refine ⟨(mem_free _ _).bumps k1, k2.trans g2, fun y hy => ?_⟩
    rw [(mem_free st2 m).cover]
    have e1 := g3 y hy
    have e2 := k3 y hy
    have e3 := seg_mono (n := n2) (y := y) (Nat.add_le_add_left (take (op.key.drop op.depth) op.prefixMismatch) 2)
    have e4 : op.count + prefixSlots (op.pfx.drop (op.prefixMismatch + 1)).length = op.count + prefixSlots (op.pfx.length - op.prefixMismatch - 1) := by
      rw [List.length_drop, Nat.sub_sub]
    rw [(mem_free st1 _).cover] at e2
    rw [e4] at e1
    simp only [Commit.priv, List.map_cons, List.map_nil, List.sum_cons, List.sum_nil, Nat.add_zero]
    simp only at *
    omega
  · cases h
    exact ⟨hb, rfl, fun _ _ => Nat.le_add_right _ _⟩
  · rename_i e
    obtain ⟨hc, hp⟩ := hc (by rw [e]; rfl)
    split at h
    · rename_i hlt
      have : op.count < 127 := hlt
      obtain ⟨⟨n, d, st1⟩, h1, h⟩ := bind_ok h
      obtain ⟨_, _, h⟩ := bind_ok h
      obtain ⟨_, _, h⟩ := bind_ok h
      obtain ⟨_, _, h⟩ := bind_ok h
      obtain ⟨_, _, h⟩ := bind_ok h
      obtain ⟨_, _, h⟩ := bind_ok h
      cases h
      exact oneN hb h1 (fit (by omega) hp) rfl (Nat.le_refl _)
    · obtain ⟨⟨n, d, st1⟩, h1, h⟩ := bind_ok h
      obtain ⟨_, _, h⟩ := bind_ok h
      obtain ⟨_, _, h⟩ := bind_ok h
      obtain ⟨_, _, h⟩ := bind_ok h
      obtain ⟨_, _, h⟩ := bind_ok h
      obtain ⟨_, _, h⟩ := bind_ok h
      cases h
      exact one hb h1 (fit (Nat.le_refl _) hp) rfl (Nat.le_refl _)
  all_goals
    split at h
    · cases h
      exact ⟨hb, rfl, fun _ _ => Nat.le_add_right _ _⟩
    · obtain ⟨_, _, h⟩ := bind_ok h
      obtain ⟨_, _, h⟩ := bind_ok h
      obtain ⟨⟨n, d, st1⟩, h1, h⟩ := bind_ok h
      obtain ⟨m, _, h⟩ := bind_ok h
      cases h
      exact one hb h1 (two (by simp; omega)) rfl (Nat.add_le_add_left (take _ _) _)

/-- A delete takes the memory of its new node, and nothing else. -/
theorem buildD_draws {S L : Nat} {st : St} {a : Nat} {op : DelOp} (ha : a < st.nalloc) (hL : 256 + prefixSlots L ≤ S) (hS : S + 1 < blockSlots)
    (hm : op.kind = .replaceNodeWithNode → op.count ≤ 256 ∧ op.pfx.length ≤ L)
    (hd : op.kind = .deleteLeaf → op.count ≤ 256 ∧ op.prefixLen ≤ L) : Draws S st (buildD st a op) (·.2) (fun r y => r.1.priv y) := by
  have fit : ∀ {c l : Nat}, c ≤ 256 → l ≤ L → c + prefixSlots l ≤ S := fun h1 h2 => by have := prefixSlots_mono h2; omega
  have h1S : 1 ≤ S := by omega
  intro hb r h
  unfold buildD at h
  split at h
  · cases h
    exact ⟨hb, rfl, fun _ _ => Nat.le_add_right _ _⟩
  · cases h
    exact ⟨hb, rfl, fun _ _ => Nat.le_add_right _ _⟩
  · rename_i e
    obtain ⟨⟨n, d, st1⟩, h1, h⟩ := bind_ok h
    obtain ⟨_, _, h⟩ := bind_ok h
    obtain ⟨ws, _, h⟩ := bind_ok h
    cases h
    obtain ⟨g1, g2, g3⟩ := allocNodeP_draws ha (fit (hm e).1 (hm e).2) h1S hS hb _ h1
    refine ⟨(mem_free _ _).bumps g1, g2, fun y hy => ?_⟩
    rw [(mem_free st1 _).cover]
    have := g3 y hy
    simpa [Commit.priv] using this
  · rename_i e
    have := (hd e).1
    obtain ⟨⟨n, d, st1⟩, h1, h⟩ := bind_ok h
    obtain ⟨_, _, h⟩ := bind_ok h
    obtain ⟨_, _, h⟩ := bind_ok h
    obtain ⟨_, _, h⟩ := bind_ok h
    obtain ⟨_, _, h⟩ := bind_ok h
    obtain ⟨_, _, h⟩ := bind_ok h
    cases h
    obtain ⟨g1, g2, g3⟩ := allocNode_draws ha (fit (by omega) (hd e).2) h1S hS hb _ h1
    refine ⟨(mem_free _ _).bumps g1, g2, fun y hy => ?_⟩
    rw [(mem_free st1 _).cover]
    have := g3 y hy
    simpa [Commit.priv] using this
  · cases h
    exact ⟨hb, rfl, fun _ _ => Nat.le_add_right _ _⟩
  · cases h

theorem commit_free (st : St) (cm : Commit) : KeepFree st (st.commit cm).2.2 := by
  unfold St.commit St.cas St.store
  split
  · cases cm.ptr <;> exact ⟨rfl, rfl, fun _ _ => ⟨rfl, rfl, rfl, rfl⟩⟩
  · split
    · cases cm.ptr <;> exact ⟨rfl, rfl, fun _ _ => ⟨rfl, rfl, rfl, rfl⟩⟩
    · exact .refl _

/-! ## Recycling -/

theorem upd_free {st st' : St} {a : Nat} {al : Alloc} (h1 : st'.baNext = st.baNext) (h2 : st'.nalloc = st.nalloc)
    (h3 : st'.allocs = upd st.allocs a al) (h4 : al.nextFree = (st.allocs a).nextFree ∧ al.offset = (st.allocs a).offset ∧
      al.block = (st.allocs a).block ∧ al.recycler = (st.allocs a).recycler) : KeepFree st st' := by
  refine ⟨h1, h2, fun b _ => ?_⟩
  rw [h3]
  by_cases hb : b = a
  · subst hb; rw [upd_same]; exact h4
  · rw [upd_of_ne _ _ hb]; exact ⟨rfl, rfl, rfl, rfl⟩

theorem flushStats_free (st : St) (a : Nat) : KeepFree st (st.flushStats a) := upd_free (a := a) rfl rfl rfl ⟨rfl, rfl, rfl, rfl⟩

theorem addItems_free (st : St) (a : Nat) (i : Int) : KeepFree st ((st.addItems a i).endOp a) :=
  upd_free (a := a) rfl rfl rfl ⟨rfl, rfl, rfl, rfl⟩

theorem recycle_free {st st' : St} {a n slots : Nat} (ha : a < st.nalloc) (hs : slots < recyclerLen) (h : st.recycle a n slots = .ok st') (x : Nat) :
    freeCover st x + seg n slots x ≤ freeCover st' x := by
  have key : ∀ {st1 : St} {c : Nat}, st1.nalloc = st.nalloc → st1.baNext = st.baNext → st1.allocs = upd st.allocs a { st.allocs a with
      recycler := upd (st.allocs a).recycler slots ((st.allocs a).recycler slots ++ [⟨n, st.epoch⟩]), counter := c } →
      freeCover st x + seg n slots x = freeCover st1 x := by
    intro st1 c h1 h2 h3
    have e0 := free_change ha h1 (fun b hb => by rw [h3, upd_of_ne _ _ hb]) x
    have e1 := recCover_upd (fun _ => true) (st.allocs a).recycler hs ((st.allocs a).recycler slots ++ [⟨n, st.epoch⟩]) x
    rw [listCover_append] at e1
    have e2 : segE (fun _ => true) ⟨n, st.epoch⟩ slots x = seg n slots x := rfl
    rw [h3, upd_same, h2] at e0
    have e3 : bumpCover { st.allocs a with
      recycler := upd (st.allocs a).recycler slots ((st.allocs a).recycler slots ++ [⟨n, st.epoch⟩]), counter := c } x =
      bumpCover (st.allocs a) x := rfl
    rw [e3] at e0
    simp only at e0
    omega
  unfold St.recycle at h
  simp only at h
  rw [if_neg (by omega), if_pos hs] at h
  split at h
  · cases h
    rw [(flushStats_free _ _).cover]
    exact Nat.le_of_eq (key rfl rfl rfl)
  · cases h
    exact Nat.le_of_eq (key rfl rfl rfl)

theorem runTail_free {st st' : St} {a : Nat} {tl : Tail} (ha : a < st.nalloc) (hs : tl.size < recyclerLen) (h : st.runTail a tl = .ok st') (x : Nat) :
    freeCover st x + tl.seg x ≤ freeCover st' x := by
  unfold St.runTail at h
  obtain ⟨s1, h1, h⟩ := bind_ok h
  have k1 := (unlockBy_quiet h1).free
  split at h
  · rename_i hf
    obtain ⟨s2, h2, h⟩ := bind_ok h
    cases h2
    cases h
    rw [(addItems_free _ _ _).cover, k1.cover]
    simp [Tail.seg, hf]
  · rename_i n sl hf
    obtain ⟨s2, h2, h⟩ := bind_ok h
    cases h
    rw [(addItems_free _ _ _).cover]
    have := recycle_free (by rw [k1.nalloc]; exact ha) (by simpa [Tail.size, hf] using hs) h2 x
    rw [k1.cover] at this
    simpa [Tail.seg, hf] using this

/-! ## Steps -/

/-- Each slot that counts is in a node of the tree, belongs to an operation, or is free. -/
def Whole (S : Nat) (s : Sys) (t : T) : Prop := ∀ x, Inner S x → 1 ≤ t.cover x + s.pend x + freeCover s.st x

/-- `Finalize` returns true, and it does not merge two nodes (`replaceNodeWithNode`, delete.go:285-297, loses the upper one). -/
def Thrifty (s : Sys) (act : Act) (s' : Sys) : Prop :=
  ∀ a, (act = .commit a ∨ ∃ v, act = .publish a v) →
    (∀ b tl, s'.proc a = .upd (.tail b tl) ∨ s'.proc a = .del (.tail b tl) → b = true) ∧
    ∀ cur, (s.proc a = .del (.held cur) ∨ ∃ cm, s.proc a = .delB cur cm) → cur.op.kind ≠ .replaceNodeWithNode

section
variable {env : Env} {s s' : Sys} {σ : Spec} {t : T} {seen : Nat → T → Prop} {L S : Nat}

theorem whole_set {t' : T} {a : Nat} {st' : St} {p : Proc} (hw : Whole S s t) (ha : a < s.st.nalloc) (hn : st'.nalloc = s.st.nalloc)
    (h : ∀ x, Inner S x → t.cover x + (s.proc a).pend x + freeCover s.st x ≤ t'.cover x + p.pend x + freeCover st' x) :
    Whole S (s.set a st' p) t' := by
  intro x hx
  have e1 := hw x hx
  have e2 := h x hx
  have e3 := pend_step (s := s) (s' := s.set a st' p) ha hn (fun b hb => Sys.set_other _ _ _ _ hb) x
  rw [Sys.set_self] at e3
  rw [Sys.set_st]
  omega

theorem whole_quiet {a : Nat} {st' : St} {p : Proc} (hw : Whole S s t) (ha : a < s.st.nalloc) (hk : KeepFree s.st st')
    (h : ∀ x, (s.proc a).pend x ≤ p.pend x) : Whole S (s.set a st' p) t :=
  whole_set hw ha hk.nalloc fun x _ => by have := h x; rw [hk.cover]; omega

theorem updPend {ph : UPh} (h : ∀ b tl, ph ≠ .tail b tl) (x : Nat) : (Proc.upd ph).pend x = 0 := by
  cases ph <;> first | rfl | exact absurd rfl (h _ _)

theorem delPend {ph : DPh} (h : ∀ b tl, ph ≠ .tail b tl) (x : Nat) : (Proc.del ph).pend x = 0 := by
  cases ph <;> first | rfl | exact absurd rfl (h _ _)

theorem slipU_noTail {st : St} {ph : UPh} {r : Res UPh} (h : slipU st ph = some r) : ∀ b tl, ph ≠ .tail b tl := by
  rintro b tl rfl
  cases h

theorem slipD_noTail {st : St} {ph : DPh} {r : Res DPh} (h : slipD st ph = some r) : ∀ b tl, ph ≠ .tail b tl := by
  rintro b tl rfl
  cases h

/-- Steps that publish nothing lose nothing. -/
theorem exec_quiet_whole (hI : Inv env s σ t seen) (hlen : ∀ k, env.keys k → k.length ≤ L) (hL : 256 + prefixSlots L ≤ S) (hS : S + 1 < blockSlots)
    (ho : ∀ a, (s.proc a).owed < recyclerLen) {act : Act} {ev : Ev} (h : exec env.fetch s act = some (.ok (s', ev)))
    (hnp : act.publishes = false) (hw : Whole S s t) : Whole S s' t := by
  have hb : BumpsOK s.st := fun a ha => (hI.mem.core.ok a ha).bumpOK
  have lt : ∀ {a : Nat}, s.proc a ≠ .idle → a < s.st.nalloc := fun h => active_lt hI h
  cases act with
  | begin b c =>
    simp only [exec] at h
    split at h
    · rename_i hp
      split at h
      · rename_i ha
        cases h
        exact whole_quiet hw ha (.refl _) fun x => by rw [hp]; exact Nat.zero_le _
      · cases h
    · cases h
  | arm b =>
    simp only [exec] at h
    split at h
    · rename_i e c hp
      cases h
      exact whole_quiet hw (lt (by rw [hp]; simp)) ⟨rfl, rfl, fun _ _ => ⟨rfl, rfl, rfl, rfl⟩⟩ fun x => by rw [hp]; exact Nat.zero_le _
    · cases h
  | run b =>
    have hq := run_quiet h
    simp only [exec] at h
    split at h
    case h_3 ph hn1 hn2 hp =>
      injection h with h
      obtain ⟨⟨ph', st'⟩, h1, h⟩ := bind_ok h
      cases h
      exact whole_quiet hw (lt (by rw [hp]; simp)) hq.free fun x => by
        rw [hp, updPend (fun b tl e => hn2 b tl (by rw [e]))]; exact Nat.zero_le _
    case h_7 ph _ _ hn hp =>
      injection h with h
      obtain ⟨⟨ph', st'⟩, h1, h⟩ := bind_ok h
      cases h
      exact whole_quiet hw (lt (by rw [hp]; simp)) hq.free fun x => by
        rw [hp, delPend (fun b tl e => hn b tl (by rw [e]))]; exact Nat.zero_le _
    case h_9 ph hn hp =>
      injection h with h
      obtain ⟨ph', h1, h⟩ := bind_ok h
      cases h
      exact whole_quiet hw (lt (by rw [hp]; simp)) (.refl _) fun x => by rw [hp]; exact Nat.zero_le _
    all_goals cases h
  | slip b =>
    simp only [exec] at h
    split at h
    · split at h
      · rename_i ph hp
        cases hs : slipU s.st ph with
        | none => rw [hs] at h; cases h
        | some r =>
          rw [hs] at h
          injection h with h
          obtain ⟨ph', h1, h⟩ := bind_ok h
          cases h
          exact whole_quiet hw (lt (by rw [hp]; simp)) (.refl _) fun x => by rw [hp, updPend (slipU_noTail hs)]; exact Nat.zero_le _
      · rename_i ph hp
        cases hs : slipD s.st ph with
        | none => rw [hs] at h; cases h
        | some r =>
          rw [hs] at h
          injection h with h
          obtain ⟨ph', h1, h⟩ := bind_ok h
          cases h
          exact whole_quiet hw (lt (by rw [hp]; simp)) (.refl _) fun x => by rw [hp, delPend (slipD_noTail hs)]; exact Nat.zero_le _
      · cases h
    · cases h
  | publish b value => cases hnp
  | commit b => cases hnp
  | build b value =>
    simp only [exec] at h
    split at h
    · rename_i f op hp
      injection h with h
      obtain ⟨⟨cm, st1⟩, h1, h⟩ := bind_ok h
      cases h
      have ha := lt (a := b) (by rw [hp]; simp)
      obtain ⟨f1, f2⟩ := heldU_fit hI hlen hp
      obtain ⟨_, g2, g3⟩ := buildU_draws ha hL hS f1 f2 hb _ h1
      refine whole_set hw ha g2 fun x hx => ?_
      have e1 := g3 x hx
      have e2 : (s.proc b).pend x = 0 := by rw [hp]; rfl
      have e3 : (Proc.updB op value cm).pend x = cm.priv x := rfl
      simp only at e1 ⊢
      omega
    · rename_i cur hp
      split at h
      · cases h
      injection h with h
      obtain ⟨⟨cm, st1⟩, h1, h⟩ := bind_ok h
      cases h
      have ha := lt (a := b) (by rw [hp]; simp)
      obtain ⟨f1, f2⟩ := heldD_fit hI hlen hp
      obtain ⟨_, g2, g3⟩ := buildD_draws ha hL hS f1 f2 hb _ h1
      refine whole_set hw ha g2 fun x hx => ?_
      have e1 := g3 x hx
      have e2 : (s.proc b).pend x = 0 := by rw [hp]; rfl
      have e3 : (Proc.delB cur cm).pend x = cm.priv x := rfl
      simp only at e1 ⊢
      omega
    · cases h
  | unlock b =>
    have hq := exec_unlock_quiet h
    simp only [exec] at h
    split at h
    · rename_i b' tl hp
      cases hs : s.st.unlockOne tl.unl with
      | none => rw [hs] at h; cases h
      | some r =>
        rw [hs] at h
        injection h with h
        obtain ⟨⟨u, st'⟩, h1, h⟩ := bind_ok h
        cases h
        exact whole_quiet hw (lt (by rw [hp]; simp)) hq.free fun x => by rw [hp]; exact Nat.le_refl _
    · rename_i b' tl hp
      cases hs : s.st.unlockOne tl.unl with
      | none => rw [hs] at h; cases h
      | some r =>
        rw [hs] at h
        injection h with h
        obtain ⟨⟨u, st'⟩, h1, h⟩ := bind_ok h
        cases h
        exact whole_quiet hw (lt (by rw [hp]; simp)) hq.free fun x => by rw [hp]; exact Nat.le_refl _
    · cases h
  | quit b =>
    simp only [exec] at h
    split at h
    · rename_i f op hp
      cases h
      exact whole_quiet hw (lt (by rw [hp]; simp)) (.refl _) fun x => by rw [hp]; exact Nat.zero_le _
    · rename_i cur hp
      cases h
      exact whole_quiet hw (lt (by rw [hp]; simp)) (.refl _) fun x => by rw [hp]; exact Nat.zero_le _
    · cases h
  | tail b =>
    simp only [exec] at h
    split at h
    · rename_i b' tl hp
      injection h with h
      obtain ⟨s1, h1, h⟩ := bind_ok h
      cases h
      have ha := lt (a := b) (by rw [hp]; simp)
      have hz := ho b
      rw [hp] at hz
      refine whole_set hw ha (runTail_bump h1).nalloc fun x _ => ?_
      have e1 := runTail_free ha hz h1 x
      have e2 : (s.proc b).pend x = tl.seg x := by rw [hp]; rfl
      omega
    · rename_i b' tl hp
      injection h with h
      obtain ⟨s1, h1, h⟩ := bind_ok h
      cases h
      have ha := lt (a := b) (by rw [hp]; simp)
      have hz := ho b
      rw [hp] at hz
      refine whole_set hw ha (runTail_bump h1).nalloc fun x _ => ?_
      have e1 := runTail_free ha hz h1 x
      have e2 : (s.proc b).pend x = tl.seg x := by rw [hp]; rfl
      omega
    · cases h
  | abort b =>
    simp only [exec] at h
    split at h
    · rename_i f op hp
      injection h with h
      obtain ⟨s1, h1, h⟩ := bind_ok h
      cases h
      exact whole_quiet hw (lt (by rw [hp]; simp)) (abortU_quiet h1).free fun x => by rw [hp]; exact Nat.zero_le _
    · rename_i cur hp
      injection h with h
      obtain ⟨s1, h1, h⟩ := bind_ok h
      cases h
      exact whole_quiet hw (lt (by rw [hp]; simp)) (abortD_quiet h1).free fun x => by rw [hp]; exact Nat.zero_le _
    · cases h
  | finish b =>
    simp only [exec] at h
    split at h
    all_goals first
      | (rename_i hp
         cases h
         exact whole_quiet hw (lt (by rw [hp]; simp)) ⟨rfl, rfl, fun _ _ => ⟨rfl, rfl, rfl, rfl⟩⟩ fun x => by rw [hp]; exact Nat.zero_le _)
      | cases h
  | flush b =>
    simp only [exec] at h
    split at h
    · rename_i hp
      split at h
      · rename_i ha
        cases h
        exact whole_quiet hw ha (flushStats_free _ _) fun x => by rw [hp]; exact Nat.zero_le _
      · cases h
    · cases h
  | block =>
    simp only [exec] at h
    injection h with h
    obtain ⟨s1, h1, h⟩ := bind_ok h
    cases h
    have hk : KeepFree s.st s1 := by
      unfold St.blockStep at h1
      repeat' split at h1
      all_goals first | (cases h1; exact ⟨rfl, rfl, fun _ _ => ⟨rfl, rfl, rfl, rfl⟩⟩) | cases h1
    intro x hx
    have e1 := hw x hx
    rw [pend_congr (s := s) (s' := ⟨s1, s.proc⟩) hk.nalloc (fun _ => rfl), hk.cover]
    exact e1

/-- Publishing a change that has been built. -/
theorem commitU_whole {a : Nat} {op : UpdOp} {value : Word} {cm : Commit} (hI : Inv env s σ t seen) (hp : s.proc a = .updB op value cm)
    (hb : (s.st.commit cm).1 = true) (hw : Whole S s t) :
    ∃ t' seen', Inv env (s.set a (s.st.commit cm).2.2 (.upd (.tail (s.st.commit cm).1 (s.st.commit cm).2.1)))
      (σ.next (if (s.st.commit cm).1 then .put op.key (trunc55 value) else .none)) t' seen' ∧
      Whole S (s.set a (s.st.commit cm).2.2 (.upd (.tail (s.st.commit cm).1 (s.st.commit cm).2.1))) t' := by
  obtain ⟨b, tl, st', e, _, t', seen', _, hI', _, _, _, hk⟩ := commitU_full hI hp
  have hf := commit_free s.st cm
  rw [e] at hb hf ⊢
  refine ⟨t', seen', hI', whole_set hw (active_lt hI (by rw [hp]; simp)) hf.nalloc fun x _ => ?_⟩
  have e1 := hk hb x
  have e2 : (s.proc a).pend x = cm.priv x := by rw [hp]; rfl
  have e3 : (Proc.upd (.tail b tl)).pend x = tl.seg x := rfl
  have e4 := hf.cover x
  simp only at e4 ⊢
  omega

theorem commitD_whole {a : Nat} {cur : DelCur} {cm : Commit} (hI : Inv env s σ t seen) (hp : s.proc a = .delB cur cm)
    (hcalm : Calm s (.commit a)) (hb : (s.st.commit cm).1 = true) (hm : cur.op.kind ≠ .replaceNodeWithNode) (hw : Whole S s t) :
    ∃ t' seen', Inv env (s.set a (s.st.commit cm).2.2 (.del (.tail (s.st.commit cm).1 (s.st.commit cm).2.1)))
      (σ.next (if (s.st.commit cm).1 then .del cur.key else .none)) t' seen' ∧
      Whole S (s.set a (s.st.commit cm).2.2 (.del (.tail (s.st.commit cm).1 (s.st.commit cm).2.1))) t' := by
  obtain ⟨b, tl, st', e, _, _, t', seen', _, hI', _, _, _, hk⟩ := commitD_full hI hp hcalm
  have hf := commit_free s.st cm
  rw [e] at hb hf ⊢
  refine ⟨t', seen', hI', whole_set hw (active_lt hI (by rw [hp]; simp)) hf.nalloc fun x _ => ?_⟩
  have e1 := hk hb hm x
  have e2 : (s.proc a).pend x = cm.priv x := by rw [hp]; rfl
  have e3 : (Proc.del (.tail b tl)).pend x = tl.seg x := rfl
  have e4 := hf.cover x
  simp only at e4 ⊢
  omega

/-- A step loses nothing unless `Finalize` returns false or merges two nodes. -/
theorem exec_whole (hI : Inv env s σ t seen) (hlen : ∀ k, env.keys k → k.length ≤ L) (hL : 256 + prefixSlots L ≤ S) (hS : S + 1 < blockSlots)
    (ho : ∀ a, (s.proc a).owed < recyclerLen) {act : Act} {ev : Ev} (hall : env.Allowed s act) (hcalm : Calm s act)
    (h : exec env.fetch s act = some (.ok (s', ev))) (hT : Thrifty s act s') (hw : Whole S s t) :
    ∃ t' seen', Inv env s' (σ.next ev) t' seen' ∧ Whole S s' t' := by
  cases hpub : act.publishes with
  | false =>
    rcases exec_inv hI hall hcalm h with ⟨s1, ev1, t', seen', e, hI', _, _, _, _, ht⟩ | ⟨e, he, _⟩
    · cases e
      obtain rfl := ht hpub
      exact ⟨_, _, hI', exec_quiet_whole hI hlen hL hS ho h hpub hw⟩
    · cases he
  | true =>
    cases act with
    | publish a value =>
      have hT := hT a (.inr ⟨value, rfl⟩)
      simp only [exec] at h
      split at h
      · rename_i f op hp
        injection h with h
        obtain ⟨⟨b, tl, st2⟩, h1, h⟩ := bind_ok h
        cases h
        rw [publishU_eq] at h1
        obtain ⟨⟨cm, st1⟩, hbd, h1⟩ := bind_ok h1
        have hx : exec env.fetch s (.build a value) = some (.ok (s.set a st1 (.updB op value cm), .none)) := by
          simp only [exec, hp, hbd]; rfl
        have hw1 := exec_quiet_whole hI hlen hL hS ho hx rfl hw
        have hb1 := hT.1 b tl (.inl (Sys.set_self _ _ _ _))
        rcases buildU_inv hI hp hall with e | ⟨cm', st', e, _, hI1⟩
        · rw [hbd] at e; cases e
        · rw [hbd] at e
          cases e
          have e2 : st1.commit cm = (b, tl, st2) := by
            injection h1
          have := commitU_whole hI1 (a := a) (op := op) (value := value) (cm := cm) (Sys.set_self _ _ _ _) (by rw [Sys.set_st, e2]; exact hb1) hw1
          rw [Sys.set_st, e2, Sys.set_set] at this
          exact this
      · rename_i cur hp
        injection h with h
        obtain ⟨⟨b, tl, st2⟩, h1, h⟩ := bind_ok h
        cases h
        have hnf : cur.op.kind ≠ .notFound := by
          intro e
          obtain ⟨hf, _⟩ := held_del hI hp
          unfold DFact at hf
          rw [e] at hf
          exact hf
        rw [publishD_eq _ _ _ hnf] at h1
        obtain ⟨⟨cm, st1⟩, hbd, h1⟩ := bind_ok h1
        have hx : exec env.fetch s (.build a value) = some (.ok (s.set a st1 (.delB cur cm), .none)) := by
          simp only [exec, hp, hbd, if_neg hnf]; rfl
        have hw1 := exec_quiet_whole hI hlen hL hS ho hx rfl hw
        have hb1 := hT.1 b tl (.inr (Sys.set_self _ _ _ _))
        rcases buildD_inv hI hp (value := value) hall with e | ⟨cm', st', e, _, hI1⟩
        · rw [hbd] at e; cases e
        · rw [hbd] at e
          cases e
          have e2 : st1.commit cm = (b, tl, st2) := by
            injection h1
          have h256 : cur.op.kind = .deleteLeaf256 → st1 = s.st ∧ ∀ x, (Proc.delB cur cm).copied x = 0 := by
            intro hk
            unfold buildD at hbd
            simp only [hk, pure, Except.pure, Except.ok.injEq, Prod.mk.injEq] at hbd
            obtain ⟨e1, e2⟩ := hbd
            refine ⟨e2.symm, fun x => ?_⟩
            rw [← e1]; rfl
          have hc : Calm (s.set a st1 (.delB cur cm)) (.commit a) := by
            simp only [Calm, hp] at hcalm
            simp only [Calm, Sys.set_self, Sys.set_st]
            intro hk hl
            obtain ⟨e1, e2⟩ := h256 hk
            rw [e1] at hl ⊢
            obtain ⟨p, g1, g2, g3⟩ := hcalm hk hl
            refine ⟨p, g1, g2, ?_⟩
            rintro ⟨b, hb⟩
            by_cases hba : b = a
            · subst hba
              rw [Sys.set_self, e2] at hb
              omega
            · rw [Sys.set_other _ _ _ _ hba] at hb
              exact g3 ⟨b, hb⟩
          have := commitD_whole hI1 (a := a) (cur := cur) (cm := cm) (Sys.set_self _ _ _ _) hc (by rw [Sys.set_st, e2]; exact hb1)
            (hT.2 cur (.inl hp)) hw1
          rw [Sys.set_st, e2, Sys.set_set] at this
          exact this
      · cases h
    | commit a =>
      have hT := hT a (.inl rfl)
      simp only [exec] at h
      split at h
      · rename_i op value cm hp
        cases h
        exact commitU_whole hI hp (hT.1 _ _ (.inl (Sys.set_self _ _ _ _))) hw
      · rename_i cur cm hp
        cases h
        exact commitD_whole hI hp hcalm (hT.1 _ _ (.inr (Sys.set_self _ _ _ _))) (hT.2 cur (.inr ⟨cm, hp⟩)) hw
      · cases h
    | _ => cases hpub

end

end Radix
