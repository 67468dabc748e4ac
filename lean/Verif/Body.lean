import Verif.FinD
/-!
# Reading one node

What the search loops of lookups, updates and deletes do when they read a node that is in memory (reachable or not).
-/
namespace Radix
open T

/-- The memory holds this node, referred to by `raw`, at path `q`. -/
structure View (P : Key → Word → Prop) (nb : Nat) (m : Mem) (raw : Word) (q : Key) (n : Nat) (pfx : List UInt8)
    (big : Bool) (ch : UInt8 → T) : Prop where
  hnb : nb ≤ maxBlockCount
  inb : (T.node n pfx big ch).InBlocks nb
  wf : (T.node n pfx big ch).WF P q
  mem : NodeMem m n pfx big ch
  ref : ∃ b, raw = wordOf b (.node n pfx big ch)

namespace View
variable {P : Key → Word → Prop} {nb : Nat} {m : Mem} {raw : Word} {q : Key} {n : Nat} {pfx : List UInt8} {big : Bool}
  {ch : UInt8 → T} (h : View P nb m raw q n pfx big ch)
include h

theorem addr : nodeAddr raw = n := by
  obtain ⟨b, e⟩ := h.ref
  rw [e]; exact nodeAddr_wordOf h.hnb h.inb

theorem plen : nodePlen raw = min pfx.length 255 := by
  obtain ⟨b, e⟩ := h.ref
  rw [e]; exact nodePlen_wordOf h.hnb h.inb

theorem count : nodeCount raw = cnt big ch := by
  obtain ⟨b, e⟩ := h.ref
  rw [e]; exact nodeCount_wordOf h.hnb h.inb h.wf

theorem big_iff : nodeCount raw ≥ fullAllocFrom ↔ big = true := by
  rw [h.count]
  unfold cnt fullAllocFrom
  cases big with
  | true => simp
  | false =>
    have := h.wf.2.1 rfl
    simp; omega

theorem cnt_big_iff : cnt big ch ≥ fullAllocFrom ↔ big = true := by
  rw [← h.count]; exact h.big_iff

theorem fits : prefixSlots pfx.length + cnt big ch ≤ blockSlots - n % blockSlots := by
  have := h.inb.1.2.2
  unfold nodeSize at this
  omega

theorem pfx_lt : pfx.length < 2 ^ 64 := by
  have := h.wf.1.1
  rw [List.length_append, maxKeyLen_eq] at this
  omega

theorem kids (c : UInt8) : (ch c).InBlocks nb := h.inb.2 c

theorem skip : skipPrefix m ⟨n, blockSlots - n % blockSlots⟩ (nodePlen raw) =
    .ok (pfx.length, prefixSlots pfx.length,
      ⟨n + prefixSlots pfx.length, blockSlots - n % blockSlots - prefixSlots pfx.length⟩) := by
  rw [h.plen]
  exact skipPrefix_ok h.mem.pre h.pfx_lt (by have := h.fits; show _ ≤ blockSlots - n % blockSlots; omega)

theorem append (dst : List UInt8) : appendPrefix m dst ⟨n, blockSlots - n % blockSlots⟩ (nodePlen raw) =
    .ok (dst ++ pfx, prefixSlots pfx.length) := by
  rw [h.plen]
  exact appendPrefix_ok h.mem.pre h.pfx_lt (by have := h.fits; show _ ≤ blockSlots - n % blockSlots; omega)

/-- Reading the slot of a child of a 256-slot node. -/
theorem getBig (hb : big = true) (k : UInt8) :
    Slice.get m ⟨n + prefixSlots pfx.length, blockSlots - n % blockSlots - prefixSlots pfx.length⟩ k.toNat =
      .ok (wordOf k (ch k)) := by
  have hf := h.fits
  have hk := k.toNat_lt
  have h1 := h.mem.kid k (.inl hb)
  subst hb
  simp only [cnt, if_true] at hf
  unfold Slice.get
  rw [if_pos (by show _ < blockSlots - n % blockSlots - prefixSlots pfx.length; omega)]
  simp only [childSlot, idx, if_true] at h1
  rw [h1]

/-- Reading the children of a variable sized node. -/
theorem wordsSmall (hb : big = false) :
    Slice.words m ⟨n + prefixSlots pfx.length, blockSlots - n % blockSlots - prefixSlots pfx.length⟩ (cnt big ch) =
      .ok (kidWords ch) := by
  have hf := h.fits
  subst hb
  have h1 := (nodeMem_small_iff.1 h.mem).2
  unfold Slice.words
  rw [if_pos (by show _ ≤ blockSlots - n % blockSlots - prefixSlots pfx.length; omega)]
  simp only [cnt, Bool.false_eq_true, if_false]
  rw [h1]

theorem keyByte_kid (c : UInt8) (hc : present ch c = true) : keyByte (wordOf c (ch c)) = c :=
  keyByte_wordOf h.hnb (h.kids c) (present_eq_true.1 hc)

/-- The scan of a variable sized node finds the child with the byte looked for ... -/
theorem scan_some {k : UInt8} (hk : (ch k).isEmpty = false) :
    scan k (kidWords ch) = (rankOf (present ch) k, wordOf k (ch k)) :=
  scan_kids_some (w := fun c => wordOf c (ch c)) h.keyByte_kid (present_eq_true.2 hk)

/-- ... or the place where it would be. -/
theorem scan_none {k : UInt8} (hb : big = false) (hk : (ch k).isEmpty = true) :
    (scan k (kidWords ch)).1 = rankOf (present ch) k ∧ keyByte (scan k (kidWords ch)).2 ≠ k := by
  refine scan_kids_none (w := fun c => wordOf c (ch c)) h.keyByte_kid (by simp [present, hk]) ?_
  have := h.wf.2.1 hb
  omega

theorem kid_isLeaf (k : UInt8) : isLeaf (wordOf k (ch k)) = (ch k).isLf := isLeaf_wordOf h.hnb (h.kids k)

theorem kid_zero (k : UInt8) : wordOf k (ch k) = 0 ↔ (ch k).isEmpty = true := wordOf_eq_zero h.hnb (h.kids k)

omit h in
theorem childSlot_eq (k : UInt8) : n + prefixSlots pfx.length + idx big ch k = childSlot n pfx big ch k := rfl

/-- The child at byte `k` is again a node in memory, if the memory holds it. -/
theorem kid {k : UInt8} {n' pfx' big' ch'} (hk : ch k = .node n' pfx' big' ch') (hm : NodeMem m n' pfx' big' ch') :
    View P nb m (wordOf k (ch k)) (q ++ pfx ++ [k]) n' pfx' big' ch' := by
  refine ⟨h.hnb, hk ▸ h.kids k, ?_, hm, k, by rw [hk]⟩
  have := h.wf.2.2 k
  rwa [hk] at this

end View

theorem nodeData_view {P} {st : St} {raw q n pfx big ch} (h : View P st.baNext st.mem raw q n pfx big ch) :
    st.nodeData n = .ok ⟨n, blockSlots - n % blockSlots⟩ := nodeData_of_blk h.inb.1.2.1

theorem generation_view {P} {st : St} {raw q n pfx big ch} (h : View P st.baNext st.mem raw q n pfx big ch) :
    st.generation n = .ok (st.gen n) := by
  unfold St.generation lockBlock
  rw [if_pos (Nat.lt_of_lt_of_le h.inb.1.2.1 st.baNext_le)]

/-! ## Updates -/

theorem cmpPrefix_cases : ∀ (xs ys : List UInt8),
    (cmpPrefix xs ys = .ok none ∧ ys <+: xs) ∨
    (∃ p a b r s, xs = p ++ a :: r ∧ ys = p ++ b :: s ∧ a ≠ b ∧ cmpPrefix xs ys = .ok (some p.length)) ∨
    (xs <+: ys ∧ xs.length < ys.length) := by
  intro xs ys
  induction ys generalizing xs with
  | nil => left; exact ⟨by cases xs <;> rfl, List.nil_prefix⟩
  | cons y ys ih =>
    cases xs with
    | nil => right; right; exact ⟨List.nil_prefix, by simp⟩
    | cons x xs =>
      by_cases hxy : x = y
      · subst hxy
        rcases ih xs with ⟨h1, h2⟩ | ⟨p, a, b, r, s, h1, h2, h3, h4⟩ | ⟨h1, h2⟩
        · left
          refine ⟨?_, by simpa using h2⟩
          simp [cmpPrefix, h1, bind, Except.bind, pure, Except.pure]
        · right; left
          refine ⟨x :: p, a, b, r, s, by simp [h1], by simp [h2], h3, ?_⟩
          simp [cmpPrefix, h4, bind, Except.bind, pure, Except.pure]
        · right; right
          exact ⟨by simpa using h1, by simpa using h2⟩
      · right; left
        exact ⟨[], x, y, xs, ys, rfl, rfl, hxy, by simp [cmpPrefix, hxy]⟩

/-- Result of an update's visit to a node, once the prefix has been compared: `slot` is the location of the child with
the next key byte `k`, `pos` its rank. -/
def visitU (op : UpdOp) (slot pos : Nat) (big : Bool) (child : T) (k : UInt8) : UPh :=
  let op := { op with k := k, position := if big then op.position else pos }
  match child with
  | .empty => .lock false (if big then { op with kind := .nodeLeafInsert256, leafPtr := .slot slot }
      else { op with kind := .nodeLeafInsert })
  | .leaf _ _ => .lock true { op with kind := if big then .nodeLeafUpdate256 else .nodeLeafUpdate, leafPtr := .slot slot,
                                      currentLeaf := wordOf k child, value := leafValue (wordOf k child) }
  | .node _ _ _ _ => .gen (op.enterNode slot (wordOf k child))

theorem childrenU_view {P nb m raw q n pfx big ch} (h : View P nb m raw q n pfx big ch) {op : UpdOp}
    (hc : op.count = cnt big ch) {k : UInt8} (hk : keyAt op.key op.depth = .ok k) :
    childrenU m op ⟨n + prefixSlots pfx.length, blockSlots - n % blockSlots - prefixSlots pfx.length⟩ =
      .ok (visitU op (childSlot n pfx big ch k) (rankOf (present ch) k) big (ch k) k) := by
  unfold childrenU
  rw [hk]
  simp only [bind, Except.bind, pure, Except.pure]
  by_cases hb : big = true
  · rw [if_pos (by rw [hc]; exact h.cnt_big_iff.2 hb), h.getBig hb]
    simp only [h.kid_zero, h.kid_isLeaf]
    subst hb
    cases hck : ch k with
    | empty => simp [visitU, childSlot, idx]
    | leaf lk lv => simp [visitU, childSlot, idx]
    | node => simp [visitU, childSlot, idx]
  · have hb' : big = false := by simpa using hb
    rw [if_neg (by rw [hc, h.cnt_big_iff]; exact hb), hc, h.wordsSmall hb']
    simp only
    cases hck : (ch k).isEmpty with
    | true =>
      obtain ⟨h1, h2⟩ := h.scan_none hb' hck
      rw [if_neg h2]
      rw [T.isEmpty_eq_true.1 hck]
      simp [visitU, hb', h1, hc]
    | false =>
      rw [h.scan_some hck]
      simp only
      rw [if_pos (h.keyByte_kid k (present_eq_true.2 hck)), h.kid_isLeaf]
      cases hck2 : ch k with
      | empty => simp [hck2] at hck
      | leaf lk lv => simp [visitU, childSlot, idx, hb', hc]
      | node => simp [visitU, childSlot, idx, hb', hc]

/-- The key may be added to the stored pairs as far as prefixes are concerned. -/
structure Adm (P : Key → Word → Prop) (key : Key) : Prop where
  ne : key ≠ []
  free : ∀ {lk lv}, P lk lv → key <+: lk ∨ lk <+: key → lk = key

/-- An update's operation fields after reading the prefix of the node and finding it equal. -/
def UpdOp.passed (op : UpdOp) (n : Nat) (pfx : List UInt8) : UpdOp :=
  { op with data := ⟨n, blockSlots - n % blockSlots⟩, pfx := pfx, prefixSlots := Radix.prefixSlots pfx.length
            depth := op.depth + pfx.length }

/-- An update's operation fields after reading the prefix of the node and finding a difference at position `i`. -/
def UpdOp.missed (op : UpdOp) (n : Nat) (pfx : List UInt8) (k : UInt8) (i : Nat) : UpdOp :=
  { op with data := ⟨n, blockSlots - n % blockSlots⟩, pfx := pfx, prefixSlots := Radix.prefixSlots pfx.length
            kind := .nodePrefixMiss, k := k, prefixMismatch := i }

/-- An admissible key does not end inside a node. -/
theorem Adm.longer {P key p} (ha : Adm P key) (hb : Branch P p) : ¬ key <+: p := by
  obtain ⟨_, k, v, c, h1, h2⟩ := hb
  intro h
  have h3 : key <+: k := h.trans ((List.prefix_append _ _).trans h2)
  have := ha.free h1 (.inl h3)
  subst this
  have h4 := (h2.trans h).length_le
  simp at h4
  omega

theorem bodyU_view {P} {st : St} {raw q n pfx big ch} (h : View P st.baNext st.mem raw q n pfx big ch) {op : UpdOp}
    (ha : Adm P op.key) (hn : op.node = n) (hr : op.raw = raw) (hc : op.count = cnt big ch)
    (hq : q <+: op.key) (hd : op.depth = q.length) :
    (∃ p1 kb p2 ka rest k0, pfx = p1 ++ kb :: p2 ∧ op.key = q ++ p1 ++ ka :: rest ∧ ka ≠ kb ∧
      bodyU st op = .ok (.lock false (op.missed n pfx k0 p1.length))) ∨
    (∃ k rest, op.key = q ++ pfx ++ k :: rest ∧
      bodyU st op = .ok (visitU (op.passed n pfx) (childSlot n pfx big ch k)
        (rankOf (present ch) k) big (ch k) k)) := by
  subst hn hr
  obtain ⟨tail, hkey⟩ := hq
  have hdrop : op.key.drop op.depth = tail := by rw [← hkey, hd]; simp
  have hlong := ha.longer h.wf.1
  have hfit := h.fits
  have hin : ∀ r, tail = pfx ++ r → ∃ k rest, op.key = q ++ pfx ++ k :: rest := by
    intro r hr
    cases r with
    | nil =>
      exfalso
      apply hlong
      rw [← hkey, hr]
      simp
    | cons k rest => exact ⟨k, rest, by rw [← hkey, hr]; simp⟩
  unfold bodyU
  rw [nodeData_view h]
  simp only [bind, Except.bind, pure, Except.pure]
  by_cases hp0 : pfx.length = 0
  · have e : pfx = [] := List.length_eq_zero_iff.1 hp0
    obtain ⟨k, rest, hk⟩ := hin tail (by simp [e])
    right
    refine ⟨k, rest, hk, ?_⟩
    rw [if_neg (by rw [h.plen, hp0]; decide)]
    have hv := childrenU_view h (op := { op with data := ⟨op.node, blockSlots - op.node % blockSlots⟩, pfx := [], prefixSlots := 0 }) (k := k)
      hc (by
        show keyAt op.key op.depth = _
        rw [hk, hd, e]; exact keyAt_append (by simp))
    have hs : prefixSlots pfx.length = 0 := by rw [hp0]; rfl
    rw [hs] at hv
    simp only [Nat.add_zero, Nat.sub_zero] at hv
    rw [hv]
    simp [UpdOp.passed, e, Radix.prefixSlots]
  · rw [if_pos (by rw [h.plen]; omega), h.append]
    simp only [List.nil_append]
    rw [hdrop]
    rcases cmpPrefix_cases tail pfx with ⟨h1, r, h2⟩ | ⟨p, x, y, r, s, h1, h2, h3, h4⟩ | ⟨h1, h2⟩
    · obtain ⟨k, rest, hk⟩ := hin r h2.symm
      right
      refine ⟨k, rest, hk, ?_⟩
      rw [h1]
      simp only [Slice.drop]
      rw [if_pos (by omega)]
      simp only
      have hv := childrenU_view h (op := op.passed op.node pfx) (k := k) hc (by
        show keyAt op.key (op.depth + pfx.length) = _
        rw [hk, hd]; exact keyAt_append (by simp))
      exact hv
    · left
      have hk0 : ∃ k0, keyAt op.key op.depth = .ok k0 := by
        rw [← hkey, hd, h1]
        cases p with
        | nil => exact ⟨x, keyAt_append rfl⟩
        | cons z p => exact ⟨z, keyAt_append rfl⟩
      obtain ⟨k0, hk0⟩ := hk0
      refine ⟨p, y, s, x, r, k0, h2, by rw [← hkey, h1]; simp, h3, ?_⟩
      rw [h4]
      simp only
      rw [hk0]
      simp [UpdOp.missed]
    · exfalso
      apply hlong
      rw [← hkey]
      exact (List.prefix_append_right_inj q).2 h1

/-! ## Deletes -/

/-- A variable sized node with two children. -/
theorem two_kids {ch : UInt8 → T} {k : UInt8} (hc : cntOf (present ch) = 2) (hk : (ch k).isEmpty = false) :
    ∃ k2, k2 ≠ k ∧ (ch k2).isEmpty = false ∧ ch = ch2 k (ch k) k2 (ch k2) ∧
      rankOf (present ch) k2 = 1 - rankOf (present ch) k := by
  have hpk := present_eq_true.2 hk
  have hrk := kidsOf_getElem_rank hpk
  have hlen : (kidsOf (present ch)).length = 2 := hc
  obtain ⟨x, y, hxy⟩ : ∃ x y, kidsOf (present ch) = [x, y] := by
    match h : kidsOf (present ch), hlen with
    | [x, y], _ => exact ⟨x, y, rfl⟩
  have hnd := kidsOf_nodup (present ch)
  have hmem : ∀ c, present ch c = true ↔ c = x ∨ c = y := by
    intro c; rw [← mem_kidsOf, hxy]; simp
  have hne : x ≠ y := by
    rw [hxy] at hnd
    simpa using hnd
  have hrx : rankOf (present ch) x = 0 := by
    have := rankOf_kidsOf (f := present ch) (i := 0) (by omega)
    simpa [hxy] using this
  have hry : rankOf (present ch) y = 1 := by
    have := rankOf_kidsOf (f := present ch) (i := 1) (by omega)
    simpa [hxy] using this
  have hch : ∀ a b, a ≠ b → (∀ c, present ch c = true ↔ c = a ∨ c = b) → ch = ch2 a (ch a) b (ch b) := by
    intro a b hab hm
    funext c
    by_cases h1 : c = a
    · subst h1; exact (ch2_fst hab).symm
    · by_cases h2 : c = b
      · subst h2; exact ch2_snd.symm
      · rw [ch2_other h1 h2]
        have h3 : ¬ present ch c = true := by rw [hm]; simp [h1, h2]
        rw [present_eq_true] at h3
        exact T.isEmpty_eq_true.1 (by simpa using h3)
  rcases (hmem k).1 hpk with rfl | rfl
  · refine ⟨y, fun e => hne e.symm, present_eq_true.1 ((hmem y).2 (.inr rfl)), hch _ _ hne hmem, by rw [hrx, hry]⟩
  · refine ⟨x, hne, present_eq_true.1 ((hmem x).2 (.inl rfl)), hch _ _ (Ne.symm hne) ?_, by rw [hrx, hry]⟩
    intro c; rw [hmem c]; exact Or.comm

/-- The delete found the leaf `w` in a 256-slot node. -/
def DelCur.found256 (cur : DelCur) (slot : Nat) (w : Word) : DelCur :=
  { cur with op := { cur.op with raw := w, leafPtr := .slot slot, kind := .deleteLeaf256, value := leafValue w } }

/-- The delete found the leaf `w` in a node with at least three children. -/
def DelCur.foundLeaf (cur : DelCur) (pos count : Nat) (w : Word) : DelCur :=
  { cur with op := { cur.op with leafPosition := pos, count := count, kind := .deleteLeaf, value := leafValue w } }

/-- The delete found the leaf `w` in a node with two children. -/
def DelCur.foundTwo (cur : DelCur) (pos : Nat) (w : Word) : DelCur :=
  { cur with op := { cur.op with leafPosition := pos, value := leafValue w } }

/-- The other child is the leaf `other`. -/
def DelCur.foundPair (cur : DelCur) (other : Word) (k : UInt8) : DelCur :=
  { cur with op := { cur.op with newLeaf := updateLeafKey other k, count := 2, kind := .replaceNodeWithLeaf } }

/-- The other child is the node `other`. -/
def DelCur.foundMerge (cur : DelCur) (other : Word) : DelCur :=
  { cur with op := { cur.op with child := nodeAddr other, count := nodeCount other } }

theorem childrenD_view {P nb m raw q n pfx big ch} (h : View P nb m raw q n pfx big ch) {cur : DelCur} {k : UInt8} {plen : Nat}
    (hlt : cur.depth < cur.key.length) (hk : keyAt cur.key cur.depth = .ok k) {r : Res DPh}
    (hr : childrenD m cur (nodeCount raw) plen
      ⟨n + prefixSlots pfx.length, blockSlots - n % blockSlots - prefixSlots pfx.length⟩ = r) :
    (ch k = .empty ∧ r = .ok (.miss cur.key)) ∨
    ((ch k).isNode = true ∧ r = .ok (.gen (cur.enterNode (childSlot n pfx big ch k) (wordOf k (ch k))))) ∨
    (∃ lk lv, ch k = .leaf lk lv ∧
      ((big = true ∧ r = .ok (.held (cur.found256 (childSlot n pfx big ch k) (wordOf k (ch k))))) ∨
      (big = false ∧ 3 ≤ cntOf (present ch) ∧
        r = .ok (.lock (cur.foundLeaf (rankOf (present ch) k) (cntOf (present ch)) (wordOf k (ch k))))) ∨
      (∃ k2, big = false ∧ k ≠ k2 ∧ (ch k2).isEmpty = false ∧ ch = ch2 k (.leaf lk lv) k2 (ch k2) ∧
        r = .ok (.other (cur.foundTwo (rankOf (present ch) k) (wordOf k (ch k))) (childSlot n pfx big ch k2) plen)))) := by
  subst hr
  have hcnt := h.count
  unfold childrenD
  rw [if_neg (by omega), hk]
  simp only [bind, Except.bind, pure, Except.pure]
  by_cases hb : big = true
  · rw [if_pos (h.big_iff.2 hb), h.getBig hb]
    simp only [h.kid_zero, h.kid_isLeaf]
    subst hb
    cases hck : ch k with
    | empty => left; simp
    | leaf lk lv =>
      right; right
      refine ⟨lk, lv, rfl, .inl ⟨rfl, ?_⟩⟩
      simp [DelCur.found256, childSlot, idx]
    | node => right; left; simp [childSlot, idx]
  · have hb' : big = false := by simpa using hb
    rw [if_neg (by rw [h.big_iff]; exact hb), hcnt, h.wordsSmall hb']
    simp only
    cases hck : (ch k).isEmpty with
    | true =>
      obtain ⟨h1, h2⟩ := h.scan_none hb' hck
      rw [if_neg h2]
      exact .inl ⟨T.isEmpty_eq_true.1 hck, rfl⟩
    | false =>
      rw [h.scan_some hck]
      simp only
      rw [if_pos (h.keyByte_kid k (present_eq_true.2 hck)), h.kid_isLeaf]
      subst hb'
      cases hck2 : ch k with
      | empty => simp [hck2] at hck
      | node => right; left; simp [childSlot, idx]
      | leaf lk lv =>
        right; right
        refine ⟨lk, lv, rfl, .inr ?_⟩
        have hsm := h.wf.2.1 rfl
        simp only [isLf_leaf, if_true, cnt, Bool.false_eq_true, if_false]
        by_cases h2 : cntOf (present ch) = 2
        · right
          rw [if_pos h2]
          obtain ⟨k2, hne, hk2, hch, hrk⟩ := two_kids h2 hck
          rw [hck2] at hch
          refine ⟨k2, trivial, Ne.symm hne, hk2, hch, ?_⟩
          simp [DelCur.foundTwo, childSlot, idx, hrk]
        · rw [if_neg h2]
          left
          exact ⟨trivial, by omega, by simp [DelCur.foundLeaf]⟩

/-- A delete's state after skipping the prefix of the node. -/
def DelCur.passed (cur : DelCur) (n : Nat) (pfx : List UInt8) : DelCur :=
  { cur with op := { cur.op with data := ⟨n, blockSlots - n % blockSlots⟩, prefixLen := pfx.length,
                                 prefixSlots := prefixSlots pfx.length }
             depth := cur.depth + pfx.length }

theorem bodyD_view {P} {st : St} {q n pfx big ch} {cur : DelCur} (h : View P st.baNext st.mem cur.op.raw q n pfx big ch)
    (hn : cur.op.node = n) :
    bodyD st cur = childrenD st.mem (cur.passed n pfx) (nodeCount cur.op.raw) (nodePlen cur.op.raw)
      ⟨n + prefixSlots pfx.length, blockSlots - n % blockSlots - prefixSlots pfx.length⟩ := by
  subst hn
  unfold bodyD
  rw [nodeData_view h]
  simp only [bind, Except.bind]
  rw [h.skip]
  rfl

end Radix
