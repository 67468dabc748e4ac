import Verif.SearchProof
import Verif.Model.Iterator
/-!
# The leaves of a tree in order, and the prefix search
-/
set_option autoImplicit false
namespace Radix
open T

/-- The leaves from left to right. -/
def T.leaves : T → List (Key × Word)
  | .empty => []
  | .leaf k v => [(k, v)]
  | .node _ _ _ ch => allBytes.flatMap fun c => (ch c).leaves

/-- The number of nodes. -/
def T.nodes : T → Nat
  | .empty => 0
  | .leaf _ _ => 0
  | .node _ _ _ ch => 1 + sumB fun c => (ch c).nodes

theorem T.mem_leaves {k : Key} {v : Word} : ∀ {t : T}, (k, v) ∈ t.leaves ↔ t.Has k v
  | .empty => by simp [T.leaves, T.Has]
  | .leaf k' v' => by simp [T.leaves, T.Has, eq_comm]
  | .node _ _ _ ch => by
    simp only [T.leaves, List.mem_flatMap, T.Has]
    constructor
    · rintro ⟨c, _, h⟩; exact ⟨c, T.mem_leaves.1 h⟩
    · rintro ⟨c, h⟩; exact ⟨c, mem_allBytes c, T.mem_leaves.2 h⟩

theorem lt_of_branch {c d : UInt8} (h : c < d) (r s : Key) : ∀ p : Key, (p ++ c :: r : Key) < p ++ d :: s
  | [] => List.Lex.rel h
  | a :: p => List.Lex.cons (lt_of_branch h r s p)

/-- The order of the leaves is the order of the keys. -/
theorem T.leaves_sorted {P} {t : T} : ∀ {q : Key}, t.WF P q → t.leaves.Pairwise fun a b => a.1 < b.1 := by
  induction t with
  | empty => intro _ _; exact List.Pairwise.nil
  | leaf => intro _ _; exact List.pairwise_singleton ..
  | node n pfx big ch ih =>
    intro q hwf
    simp only [T.leaves]
    rw [List.pairwise_flatMap]
    refine ⟨fun c _ => ih c (hwf.2.2 c), allBytes_sorted.imp ?_⟩
    rintro c d hcd ⟨k1, v1⟩ h1 ⟨k2, v2⟩ h2
    obtain ⟨r, hr⟩ := ((hwf.2.2 c).has (T.mem_leaves.1 h1)).1
    obtain ⟨s, hs⟩ := ((hwf.2.2 d).has (T.mem_leaves.1 h2)).1
    have := lt_of_branch hcd r s (q ++ pfx)
    show k1 < k2
    rw [← hr, ← hs]
    simpa using this

/-! ## Slots of a node -/

/-- The bytes of the slots of a node, in order. -/
def slotsOf (big : Bool) (ch : UInt8 → T) : List UInt8 := if big then allBytes else kidsOf (present ch)

theorem length_slotsOf (big : Bool) (ch : UInt8 → T) : (slotsOf big ch).length = cnt big ch := by
  unfold slotsOf cnt
  split
  · simp [allBytes]
  · rfl

theorem slotsOf_sorted (big : Bool) (ch : UInt8 → T) : (slotsOf big ch).Pairwise (· < ·) := by
  unfold slotsOf
  split
  · exact allBytes_sorted
  · exact kidsOf_sorted _

theorem mem_slotsOf {big : Bool} {ch : UInt8 → T} {c : UInt8} : c ∈ slotsOf big ch ↔ big = true ∨ (ch c).isEmpty = false := by
  unfold slotsOf
  cases big with
  | true => simp [mem_allBytes]
  | false => simp [mem_kidsOf, present_eq_true]

theorem flatMap_filter_nil {α β} {f : α → List β} {p : α → Bool} (h : ∀ a, p a = false → f a = []) :
    ∀ l : List α, (l.filter p).flatMap f = l.flatMap f
  | [] => rfl
  | a :: l => by
    cases hp : p a with
    | true => rw [List.filter_cons_of_pos hp, List.flatMap_cons, List.flatMap_cons, flatMap_filter_nil h l]
    | false => rw [List.filter_cons_of_neg (by simp [hp]), List.flatMap_cons, h a hp, flatMap_filter_nil h l]; rfl

/-- The leaves below the children at the bytes `cs`. -/
def leavesAt (ch : UInt8 → T) (cs : List UInt8) : List (Key × Word) := cs.flatMap fun c => (ch c).leaves

theorem leavesAt_slotsOf (n : Nat) (pfx : List UInt8) (big : Bool) (ch : UInt8 → T) :
    leavesAt ch (slotsOf big ch) = (T.node n pfx big ch).leaves := by
  unfold slotsOf leavesAt
  split
  · rfl
  · simp only [T.leaves, kidsOf]
    refine flatMap_filter_nil (fun c hc => ?_) _
    have : (ch c).isEmpty = true := by simpa [present] using hc
    rw [T.isEmpty_eq_true.1 this]; rfl

theorem getElem_slotsOf_idx {big : Bool} {ch : UInt8 → T} {i : Nat} (h : i < (slotsOf big ch).length) :
    idx big ch (slotsOf big ch)[i] = i := by
  cases big with
  | true =>
    simp only [slotsOf, if_true] at h
    simp only [slotsOf, if_true, idx, allBytes, List.getElem_map, List.getElem_range]
    have h' : i < 256 := by simpa [allBytes] using h
    rw [UInt8.toNat_ofNat']
    omega
  | false =>
    simp only [slotsOf, Bool.false_eq_true, if_false, idx]
    exact rankOf_kidsOf _

namespace View
variable {P : Key → Word → Prop} {nb : Nat} {m : Mem} {raw : Word} {q : Key} {n : Nat} {pfx : List UInt8} {big : Bool}
  {ch : UInt8 → T} (h : View P nb m raw q n pfx big ch)
include h

/-- Reading slot `i`. -/
theorem getSlot {i : Nat} (hi : i < (slotsOf big ch).length) :
    Slice.get m ⟨n + prefixSlots pfx.length, blockSlots - n % blockSlots - prefixSlots pfx.length⟩ i =
      .ok (wordOf (slotsOf big ch)[i] (ch (slotsOf big ch)[i])) := by
  have hf := h.fits
  have hi' := hi
  rw [length_slotsOf] at hi'
  have h1 := h.mem.kid (slotsOf big ch)[i] (mem_slotsOf.1 (List.getElem_mem hi))
  unfold Slice.get
  rw [if_pos (by show _ < blockSlots - n % blockSlots - prefixSlots pfx.length; omega)]
  simp only [childSlot, getElem_slotsOf_idx hi] at h1
  rw [h1]

/-- All slots. -/
theorem wordsAll {N : Nat} (hN : N = cnt big ch) :
    Slice.words m ⟨n + prefixSlots pfx.length, blockSlots - n % blockSlots - prefixSlots pfx.length⟩ N =
      .ok ((slotsOf big ch).map fun c => wordOf c (ch c)) := by
  subst hN
  have hf := h.fits
  unfold Slice.words
  rw [if_pos (by show _ ≤ blockSlots - n % blockSlots - prefixSlots pfx.length; omega)]
  congr 1
  refine List.ext_getElem (by simp [readWords, length_slotsOf]) fun i h1 h2 => ?_
  have hi : i < (slotsOf big ch).length := by simpa using h2
  have h1 := h.mem.kid (slotsOf big ch)[i] (mem_slotsOf.1 (List.getElem_mem hi))
  simp only [childSlot, getElem_slotsOf_idx hi] at h1
  simp only [readWords, List.getElem_map, List.getElem_range]
  rw [h1]

end View

/-! ## The prefix search -/

theorem cmpSearch_spec : ∀ (xs ys : List UInt8),
    (cmpSearch xs ys = .all ∧ ys <+: xs) ∨ (cmpSearch xs ys = .inside ∧ xs <+: ys ∧ xs.length < ys.length) ∨
    (cmpSearch xs ys = .miss ∧ ¬ xs <+: ys ∧ ¬ ys <+: xs)
  | _, [] => .inl ⟨by simp [cmpSearch], List.nil_prefix⟩
  | [], y :: ys => .inr (.inl ⟨rfl, List.nil_prefix, by simp⟩)
  | x :: xs, y :: ys => by
    by_cases hxy : x = y
    · subst hxy
      simp only [cmpSearch, ne_eq, not_true_eq_false, if_false, List.cons_prefix_cons, true_and, List.length_cons]
      rcases cmpSearch_spec xs ys with h | h | h
      · exact .inl h
      · exact .inr (.inl ⟨h.1, h.2.1, by omega⟩)
      · exact .inr (.inr h)
    · refine .inr (.inr ⟨by simp [cmpSearch, hxy], ?_, ?_⟩)
      · intro h; exact hxy (List.cons_prefix_cons.1 h).1
      · intro h; exact hxy (List.cons_prefix_cons.1 h).1.symm

/-- The subtree at which the prefix search stops, and the byte of the reference to it. -/
def T.seek (sp : Key) : T → UInt8 → Nat → UInt8 × T
  | .empty, b, _ => (b, .empty)
  | .leaf k v, b, _ => (b, .leaf k v)
  | .node a pfx big ch, b, d =>
    if d ≥ sp.length then (b, .node a pfx big ch)
    else
      match cmpSearch (sp.drop d) pfx with
      | .inside => (b, .node a pfx big ch)
      | .miss => (b, .empty)
      | .all =>
        match sp[d + pfx.length]? with
        | none => (b, .node a pfx big ch)
        | some k => (ch k).seek sp k (d + pfx.length + 1)

/-- The prefix search in the whole tree. -/
def T.seekRoot (sp : Key) : T → UInt8 × T
  | .leaf k v => if sp = [] ∨ k.headD 0 = sp.headD 0 then (k.headD 0, .leaf k v) else (0, .empty)
  | t => t.seek sp 0 0

/-- The result is a subtree. -/
theorem T.seek_at {sp : Key} : ∀ {t : T} {b : UInt8} {d : Nat}, (t.seek sp b d).2 = .empty ∨ ∃ q, At t q (t.seek sp b d).2
  | .empty, _, _ => .inl rfl
  | .leaf _ _, _, _ => .inr ⟨[], .here _⟩
  | .node a pfx big ch, b, d => by
    simp only [T.seek]
    split
    · exact .inr ⟨[], .here _⟩
    · split
      · exact .inr ⟨[], .here _⟩
      · exact .inl rfl
      · split
        · exact .inr ⟨[], .here _⟩
        · rename_i k _
          rcases T.seek_at (sp := sp) (t := ch k) (b := k) (d := d + pfx.length + 1) with h | ⟨q, h⟩
          · exact .inl h
          · exact .inr ⟨_, .down h⟩

theorem T.seekRoot_at {sp : Key} {t : T} : (t.seekRoot sp).2 = .empty ∨ ∃ q, At t q (t.seekRoot sp).2 := by
  cases t with
  | leaf k v =>
    simp only [T.seekRoot]
    split
    · exact .inr ⟨[], .here _⟩
    · exact .inl rfl
  | empty => exact T.seek_at
  | node => exact T.seek_at

theorem partialKids_view {P} {st : St} {raw q n pfx big ch} (hv : View P st.baNext st.mem raw q n pfx big ch) (k : UInt8) (depth : Nat) :
    ∃ r, partialKids st.mem raw ⟨n + prefixSlots pfx.length, blockSlots - n % blockSlots - prefixSlots pfx.length⟩ k depth = .ok r ∧
      (((ch k).isNode = false ∧ ∃ d', r = .inl (wordOf k (ch k), d')) ∨ ((ch k).isNode = true ∧ r = .inr (wordOf k (ch k)))) := by
  unfold partialKids
  simp only [bind, Except.bind, pure, Except.pure]
  by_cases hb : big = true
  · rw [if_pos (hv.big_iff.2 hb), hv.getBig hb]
    simp only [hv.kid_zero, hv.kid_isLeaf]
    cases hck : ch k with
    | empty => exact ⟨_, rfl, .inl ⟨rfl, _, rfl⟩⟩
    | leaf lk lv => exact ⟨_, rfl, .inl ⟨rfl, _, rfl⟩⟩
    | node => exact ⟨_, rfl, .inr ⟨rfl, rfl⟩⟩
  · have hb' : big = false := by simpa using hb
    rw [if_neg (by rw [hv.big_iff]; exact hb), hv.count, hv.wordsSmall hb']
    simp only
    cases hck : (ch k).isEmpty with
    | true =>
      rw [if_neg (hv.scan_none hb' hck).2, T.isEmpty_eq_true.1 hck]
      exact ⟨_, rfl, .inl ⟨rfl, _, rfl⟩⟩
    | false =>
      rw [hv.scan_some hck]
      simp only
      rw [if_pos (hv.keyByte_kid k (present_eq_true.2 hck)), hv.kid_isLeaf]
      cases hck2 : ch k with
      | empty => simp [hck2] at hck
      | leaf lk lv => exact ⟨_, rfl, .inl ⟨rfl, _, rfl⟩⟩
      | node => exact ⟨_, rfl, .inr ⟨rfl, rfl⟩⟩

theorem partialLoop_tree {P} {st : St} {sp : Key} (hnb : st.nblocks ≤ maxBlockCount) (t : T) :
    ∀ (b : UInt8) (q : Key) (fuel : Nat), t.isNode = true → t.WF P q → t.InBlocks st.baNext → t.Repr st.mem →
      q.length ≤ sp.length → sp.length < q.length + fuel →
      ∃ d, partialLoop st sp fuel (wordOf b t) q.length = .ok (wordOf (t.seek sp b q.length).1 (t.seek sp b q.length).2, d) := by
  induction t with
  | empty => intro _ _ _ h; simp at h
  | leaf => intro _ _ _ h; simp at h
  | node n pfx big ch ih =>
    intro b q fuel _ hwf hin hr hq hfuel
    have hv := View.of_tree (b := b) hnb hin hwf hr.1
    cases fuel with
    | zero => omega
    | succ fuel =>
      unfold partialLoop
      simp only [T.seek]
      by_cases hd : q.length ≥ sp.length
      · rw [if_pos hd, if_pos hd]; exact ⟨_, rfl⟩
      rw [if_neg hd, if_neg hd, hv.addr, nodeData_view hv]
      simp only [bind, Except.bind]
      have hrec : ∀ k : UInt8, (ch k).isNode = true → q.length + pfx.length < sp.length →
          ∃ d, partialLoop st sp fuel (wordOf k (ch k)) (q.length + pfx.length + 1) =
            .ok (wordOf ((ch k).seek sp k (q.length + pfx.length + 1)).1 ((ch k).seek sp k (q.length + pfx.length + 1)).2, d) := by
        intro k hn hlt
        have h1 := ih k k (q ++ pfx ++ [k]) fuel hn (hwf.2.2 k) (hin.2 k) (hr.2 k)
          (by simp only [List.length_append, List.length_cons, List.length_nil]; omega)
          (by simp only [List.length_append, List.length_cons, List.length_nil]; omega)
        simpa [Nat.add_assoc] using h1
      have hfin : ∀ k : UInt8, q.length + pfx.length < sp.length →
          (∃ d, partialKids st.mem (wordOf b (.node n pfx big ch)) ⟨n + prefixSlots pfx.length, blockSlots - n % blockSlots - prefixSlots pfx.length⟩ k (q.length + pfx.length) =
            .ok (.inl (wordOf ((ch k).seek sp k (q.length + pfx.length + 1)).1 ((ch k).seek sp k (q.length + pfx.length + 1)).2, d))) ∨
          (partialKids st.mem (wordOf b (.node n pfx big ch)) ⟨n + prefixSlots pfx.length, blockSlots - n % blockSlots - prefixSlots pfx.length⟩ k (q.length + pfx.length) =
            .ok (.inr (wordOf k (ch k))) ∧ (ch k).isNode = true) := by
        intro k hlt
        obtain ⟨r, e, ⟨hn, d', rfl⟩ | ⟨hn, rfl⟩⟩ := partialKids_view hv k (q.length + pfx.length)
        · refine .inl ⟨d', ?_⟩
          rw [e]
          cases hck : ch k with
          | empty => simp [T.seek]
          | leaf => simp [T.seek]
          | node => rw [hck] at hn; cases hn
        · exact .inr ⟨e, hn⟩
      by_cases hp0 : pfx.length = 0
      · have e : pfx = [] := List.length_eq_zero_iff.1 hp0
        rw [if_neg (by rw [hv.plen, hp0]; decide)]
        have hc : cmpSearch (sp.drop q.length) pfx = .all := by rw [e]; simp [cmpSearch]
        rw [hc]
        simp only
        obtain ⟨k, hk⟩ : ∃ k, sp[q.length]? = some k := ⟨_, List.getElem?_eq_getElem (by omega)⟩
        have hka : keyAt sp q.length = .ok k := by unfold keyAt; rw [hk]
        have hs : prefixSlots pfx.length = 0 := by rw [hp0]; rfl
        have hf := hfin k (by omega)
        have hr := hrec k
        rw [hs, hp0] at hf
        rw [hp0] at hr
        simp only [Nat.add_zero, Nat.sub_zero] at hf hr
        rw [hka, hp0]
        simp only [Nat.add_zero, hk]
        rcases hf with ⟨d, e⟩ | ⟨e, hn⟩
        · rw [e]; exact ⟨d, rfl⟩
        · rw [e]; exact hr hn (by omega)
      · rw [if_pos (by rw [hv.plen]; omega), hv.append]
        simp only [List.nil_append, Slice.drop]
        rw [if_pos (by have := hv.fits; omega)]
        simp only
        rcases cmpSearch_spec (sp.drop q.length) pfx with ⟨hc, _⟩ | ⟨hc, _⟩ | ⟨hc, _⟩
        · rw [hc]
          simp only
          by_cases hlt : q.length + pfx.length ≥ sp.length
          · rw [if_pos hlt, List.getElem?_eq_none hlt]
            exact ⟨_, rfl⟩
          · rw [if_neg hlt]
            obtain ⟨k, hk⟩ : ∃ k, sp[q.length + pfx.length]? = some k := ⟨_, List.getElem?_eq_getElem (by omega)⟩
            have hka : keyAt sp (q.length + pfx.length) = .ok k := by unfold keyAt; rw [hk]
            rw [hka, hk]
            simp only
            rcases hfin k (by omega) with ⟨d, e⟩ | ⟨e, hn⟩
            · rw [e]; exact ⟨d, rfl⟩
            · rw [e]; exact hrec k hn (by omega)
        · rw [hc]; exact ⟨_, rfl⟩
        · rw [hc]; exact ⟨_, rfl⟩

theorem partialLoop_zero {st : St} {sp : Key} (hnb : 0 < st.nblocks) (h0 : st.mem 0 = 0) : ∀ (fuel depth : Nat),
    depth ≤ sp.length → sp.length < depth + fuel → ∃ d, partialLoop st sp fuel 0 depth = .ok (0, d) := by
  intro fuel
  induction fuel with
  | zero => intro depth h1 h2; omega
  | succ fuel ih =>
    intro depth h1 h2
    have e1 : nodeAddr 0 = 0 := by decide
    have e2 : nodePlen 0 = 0 := by decide
    have e3 : nodeCount 0 = 1 := by decide
    have e5 : isLeaf 0 = false := by decide
    have e6 : st.nodeData 0 = .ok ⟨0, blockSlots⟩ := by
      unfold St.nodeData; rw [if_pos (by simpa using hnb)]; rfl
    unfold partialLoop
    by_cases hd : depth ≥ sp.length
    · rw [if_pos hd]; exact ⟨_, rfl⟩
    · rw [if_neg hd, e1, e6]
      simp only [bind, Except.bind, e2, Nat.lt_irrefl, if_false, gt_iff_lt]
      have hka : keyAt sp depth = .ok sp[depth] := by
        unfold keyAt; rw [List.getElem?_eq_getElem (by omega)]
      rw [hka]
      have hw : Slice.words st.mem ⟨0, blockSlots⟩ 1 = .ok [0] := by
        unfold Slice.words
        rw [if_pos (by decide)]
        simp [readWords, h0]
      have hs : (scan sp[depth] [0]).2 = 0 := by unfold scan; split <;> rfl
      simp only [partialKids, e3]
      rw [if_neg (by decide), hw]
      simp only [hs, e5, bind, Except.bind, pure, Except.pure]
      split
      · rename_i h; split at h
        · cases h
        · cases h
      · rename_i v h
        split at h
        · cases h
          exact ih _ (by omega) (by omega)
        · cases h; exact ⟨_, rfl⟩

/-- `partialSearch` on a memory representing `t`. -/
theorem partialSearch_tree {P st t N} {sp : Key} (hc : CoreN P st t N) (hnb : t = .empty → sp ≠ [] → 0 < st.nblocks) :
    ∃ d, partialSearch st sp = .ok (wordOf (t.seekRoot sp).1 (t.seekRoot sp).2, d) := by
  unfold partialSearch
  rw [hc.root]
  by_cases hsp : sp = []
  · subst hsp
    refine ⟨0, ?_⟩
    rw [if_pos (by rfl)]
    cases t with
    | empty => rfl
    | leaf lk lv => simp [T.seekRoot, rootWord, wordOf]
    | node => simp [T.seekRoot, T.seek, rootWord, wordOf]
  · rw [if_neg (by simpa using hsp)]
    cases t with
    | empty =>
      have e5 : isLeaf 0 = false := by decide
      simp only [rootWord, e5, Bool.false_eq_true, if_false]
      exact partialLoop_zero (hnb rfl hsp) hc.zero _ _ (by omega) (by omega)
    | leaf lk lv =>
      simp only [rootWord, isLeaf_buildLeaf, if_true]
      obtain ⟨c, ks, rfl⟩ : ∃ c ks, sp = c :: ks := by
        cases sp with
        | nil => exact absurd rfl hsp
        | cons c ks => exact ⟨c, ks, rfl⟩
      simp only [keyAt, List.getElem?_cons_zero, bind, Except.bind, keyByte_buildLeaf]
      have e : T.seekRoot (c :: ks) (.leaf lk lv) = if c :: ks = [] ∨ lk.headD 0 = c then (lk.headD 0, .leaf lk lv) else (0, .empty) := rfl
      rw [e]
      by_cases h : lk.headD 0 = c
      · rw [if_pos h, if_pos (.inr h)]; exact ⟨_, rfl⟩
      · rw [if_neg h, if_neg (by simpa using h)]; exact ⟨_, rfl⟩
    | node n pfx big ch =>
      have e := isLeaf_wordOf (b := 0) hc.bn hc.inb
      rw [rootWord_node, e]
      simp only [isLf_node, Bool.false_eq_true, if_false]
      exact partialLoop_tree hc.nb _ 0 [] _ rfl hc.wf hc.inb hc.repr (by simp) (by simp)

/-! ## What the prefix search finds -/

theorem prefix_of_comparable {a b : Key} (h : a <+: b ∨ b <+: a) (hl : a.length ≤ b.length) : a <+: b := by
  rcases h with h | h
  · exact h
  · rw [List.IsPrefix.eq_of_length h (by have := h.length_le; omega)]
    exact List.prefix_rfl

theorem comparable_of_prefix {a b c : Key} (h1 : a <+: c) (h2 : b <+: c) : a <+: b ∨ b <+: a := by
  rcases Nat.le_total a.length b.length with h | h
  · exact .inl (List.prefix_of_prefix_length_le h1 h2 h)
  · exact .inr (List.prefix_of_prefix_length_le h2 h1 h)

/-- The keys with the search prefix are below the result; and if the result is a node, all keys below it have the prefix. -/
theorem T.seek_spec {P} {sp : Key} (t : T) : ∀ (b : UInt8) (q : Key), t.WF P q → (q <+: sp ∨ sp <+: q) →
    (∀ k v, t.Has k v → sp <+: k → (t.seek sp b q.length).2.Has k v) ∧
    ((t.seek sp b q.length).2.isNode = true → ∀ k v, (t.seek sp b q.length).2.Has k v → sp <+: k) := by
  induction t with
  | empty => intro b q _ _; exact ⟨fun _ _ h _ => h, fun h => by cases h⟩
  | leaf => intro b q _ _; exact ⟨fun _ _ h _ => h, fun h => by cases h⟩
  | node n pfx big ch ih =>
    intro b q hwf hq
    simp only [T.seek]
    have hunder : ∀ k v, (T.node n pfx big ch).Has k v → q ++ pfx <+: k := by
      intro k v h
      obtain ⟨c, hc⟩ := h
      exact (List.prefix_append _ _).trans ((hwf.2.2 c).has hc).1
    by_cases hd : q.length ≥ sp.length
    · rw [if_pos hd]
      refine ⟨fun _ _ h _ => h, fun _ k v h => ?_⟩
      exact (prefix_of_comparable hq.symm hd).trans ((List.prefix_append _ _).trans (hunder k v h))
    · rw [if_neg hd]
      obtain ⟨r, hr⟩ := prefix_of_comparable hq (by omega)
      have hdrop : sp.drop q.length = r := by rw [← hr]; simp
      rw [hdrop]
      rcases cmpSearch_spec r pfx with ⟨hc, h1⟩ | ⟨hc, h1, h2⟩ | ⟨hc, h1, h2⟩
      · rw [hc]
        simp only
        obtain ⟨s, hs⟩ := h1
        cases hk : sp[q.length + pfx.length]? with
        | none =>
          refine ⟨fun _ _ h _ => h, fun _ k v h => ?_⟩
          have hs0 : s = [] := by
            have := List.getElem?_eq_none_iff.1 hk
            rw [← hr, ← hs] at this
            simp at this
            exact List.length_eq_zero_iff.1 (by omega)
          rw [← hr, ← hs, hs0, List.append_nil]
          exact hunder k v h
        | some k =>
          obtain ⟨s', rfl⟩ : ∃ s', s = k :: s' := by
            rw [← hr, ← hs, List.getElem?_append_right (by omega), List.getElem?_append_right (by omega)] at hk
            cases s with
            | nil => simp at hk
            | cons x s' =>
              refine ⟨s', ?_⟩
              have e : q.length + pfx.length - q.length - pfx.length = 0 := by omega
              rw [e] at hk
              simp at hk
              rw [hk]
          have hsp : sp = q ++ pfx ++ [k] ++ s' := by rw [← hr, ← hs]; simp
          have hlen : (q ++ pfx ++ [k]).length = q.length + pfx.length + 1 := by simp [Nat.add_assoc]
          obtain ⟨g1, g2⟩ := ih k k (q ++ pfx ++ [k]) (hwf.2.2 k) (.inl ⟨s', hsp.symm⟩)
          rw [hlen] at g1 g2
          refine ⟨fun k' v' h hp => g1 k' v' ?_ hp, g2⟩
          obtain ⟨c, hc⟩ := h
          have h3 := ((hwf.2.2 c).has hc).1
          have h4 : q ++ pfx ++ [k] <+: k' := (show q ++ pfx ++ [k] <+: sp from ⟨s', hsp.symm⟩).trans hp
          rw [← prefix_snoc_inj h3 h4]
          exact hc
      · rw [hc]
        refine ⟨fun _ _ h _ => h, fun _ k v h => ?_⟩
        rw [← hr]
        exact ((List.prefix_append_right_inj q).2 h1).trans (hunder k v h)
      · rw [hc]
        refine ⟨fun k v h hp => ?_, fun h => by cases h⟩
        exfalso
        rw [← hr] at hp
        rcases comparable_of_prefix hp (hunder k v h) with h3 | h3
        · exact h1 ((List.prefix_append_right_inj q).1 h3)
        · exact h2 ((List.prefix_append_right_inj q).1 h3)

theorem T.seekRoot_spec {P} {sp : Key} {t : T} (hwf : t.WF P []) (hne : ∀ k v, t.Has k v → k ≠ []) :
    (∀ k v, t.Has k v → sp <+: k → (t.seekRoot sp).2.Has k v) ∧
    ((t.seekRoot sp).2.isNode = true → ∀ k v, (t.seekRoot sp).2.Has k v → sp <+: k) := by
  cases t with
  | empty => exact T.seek_spec _ 0 [] hwf (.inl List.nil_prefix)
  | node => exact T.seek_spec _ 0 [] hwf (.inl List.nil_prefix)
  | leaf lk lv =>
    simp only [T.seekRoot]
    split
    · exact ⟨fun _ _ h _ => h, fun h => by cases h⟩
    · rename_i hn
      refine ⟨fun k v h hp => ?_, fun h => by cases h⟩
      exfalso
      apply hn
      obtain ⟨rfl, _⟩ := h
      cases sp with
      | nil => exact .inl rfl
      | cons c s =>
        obtain ⟨r, hr⟩ := hp
        exact .inr (by rw [← hr]; rfl)

end Radix
