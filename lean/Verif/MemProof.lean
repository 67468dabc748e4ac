import Verif.Commit
/-!
# Writing nodes to memory
-/
namespace Radix
open T

theorem length_readWords (m : Mem) (b n : Nat) : (readWords m b n).length = n := by simp [readWords]

theorem getElem_readWords {m : Mem} {b n i : Nat} (h : i < (readWords m b n).length) :
    (readWords m b n)[i] = m (b + i) := by simp [readWords]

theorem readWords_congr {m m' : Mem} {b b' n : Nat} (h : ∀ i, i < n → m' (b' + i) = m (b + i)) :
    readWords m' b' n = readWords m b n := by
  unfold readWords
  apply List.map_congr_left
  intro i hi
  exact h i (List.mem_range.1 hi)

theorem writeWords_outside {ws : List Word} : ∀ {m : Mem} {b x : Nat}, (x < b ∨ b + ws.length ≤ x) →
    writeWords m b ws x = m x := by
  induction ws with
  | nil => intros; rfl
  | cons w ws ih =>
    intro m b x h
    simp only [List.length_cons] at h
    unfold writeWords
    rw [ih (by omega), upd_of_ne]
    omega

theorem writeWords_at {ws : List Word} : ∀ {m : Mem} {b i : Nat} (h : i < ws.length),
    writeWords m b ws (b + i) = ws[i] := by
  induction ws with
  | nil => intro m b i h; simp at h
  | cons w ws ih =>
    intro m b i h
    unfold writeWords
    cases i with
    | zero =>
      rw [writeWords_outside (by omega)]
      simp
    | succ i =>
      rw [show b + (i + 1) = b + 1 + i by omega, ih (by simpa using h)]
      simp

theorem readWords_writeWords {m : Mem} {b : Nat} {ws : List Word} : readWords (writeWords m b ws) b ws.length = ws := by
  apply List.ext_getElem
  · simp [readWords]
  · intro i h1 h2
    rw [getElem_readWords, writeWords_at h2]

theorem readWords_append (m : Mem) (b n k : Nat) : readWords m b (n + k) = readWords m b n ++ readWords m (b + n) k := by
  apply List.ext_getElem
  · simp [readWords]
  · intro i h1 h2
    rw [getElem_readWords, List.getElem_append]
    split
    · rw [getElem_readWords]
    · rename_i h
      rw [getElem_readWords]
      rw [length_readWords] at *
      congr 1
      omega

theorem readBytes_shift {m m' : Mem} {b b' n : Nat} (h : ∀ j, j < (n + 7) / 8 → m' (b' + j) = m (b + j)) :
    readBytes m' b' n = readBytes m b n := by
  unfold readBytes
  apply List.map_congr_left
  intro i hi
  have hi := List.mem_range.1 hi
  unfold byteAt
  rw [h _ (by omega)]

theorem PrefixMem.shift {m m' : Mem} {a a' : Nat} {pfx : List UInt8} (h : PrefixMem m a pfx)
    (he : ∀ j, j < prefixSlots pfx.length → m' (a' + j) = m (a + j)) : PrefixMem m' a' pfx := by
  unfold PrefixMem prefixSlots at *
  split at h
  · rename_i hl
    rw [if_pos hl]
    rw [if_pos hl] at he
    refine ⟨by simpa [h.1] using he 0 (by omega), ?_⟩
    rw [readBytes_shift (m := m) (b := a + 1)]; · exact h.2
    intro j hj
    have := he (1 + j) (by omega)
    simpa [Nat.add_assoc] using this
  · rename_i hl
    rw [if_neg hl]
    rw [if_neg hl] at he
    rw [readBytes_shift (m := m) (b := a)]; · exact h
    intro j hj
    exact he j (by omega)

/-! ## Child words -/

theorem T.InBlocks.addr_lt {n a pfx big ch} (h : (T.node a pfx big ch).InBlocks n) (hn : n ≤ maxBlockCount) :
    a < 2 ^ 39 := by
  have h1 := h.1.2.1
  have e1 : blockSlots = 262144 := rfl
  have e2 : maxBlockCount = 65536 := rfl
  rw [e1] at h1
  omega

theorem cnt_le (big : Bool) (ch : UInt8 → T) : cnt big ch ≤ 256 := by
  unfold cnt
  split
  · exact Nat.le_refl _
  · exact cntOf_le _

section
variable {n : Nat} (hn : n ≤ maxBlockCount) {b : UInt8} {t : T} (hb : t.InBlocks n)
include hn hb

theorem keyByte_wordOf (h : t.isEmpty = false) : keyByte (wordOf b t) = b := by
  cases t with
  | empty => simp at h
  | leaf k v => simp [wordOf, keyByte_buildLeaf]
  | node a pfx big ch => exact keyByte_buildNode (hb.addr_lt hn) (cnt_le _ _)

theorem wordOf_eq_zero : wordOf b t = 0 ↔ t.isEmpty = true := by
  cases t with
  | empty => simp [wordOf]
  | leaf k v => simp [wordOf, buildLeaf_ne_zero]
  | node a pfx big ch => simpa [wordOf] using buildNode_ne_zero (hb.addr_lt hn) (cnt_le _ _) hb.1.1

theorem isLeaf_wordOf : isLeaf (wordOf b t) = t.isLf := by
  cases t with
  | empty => simp [wordOf]; decide
  | leaf k v => simp [wordOf]
  | node a pfx big ch => simpa [wordOf] using isLeaf_buildNode (hb.addr_lt hn) (cnt_le _ _)
end

section
variable {n : Nat} (hn : n ≤ maxBlockCount) {b : UInt8} {a : Nat} {pfx : List UInt8} {big : Bool} {ch : UInt8 → T}
  (hb : (T.node a pfx big ch).InBlocks n)
include hn hb

theorem nodeAddr_wordOf : nodeAddr (wordOf b (.node a pfx big ch)) = a :=
  nodeAddr_buildNode (hb.addr_lt hn) (cnt_le _ _)

theorem nodePlen_wordOf : nodePlen (wordOf b (.node a pfx big ch)) = min pfx.length 255 :=
  nodePlen_buildNode (hb.addr_lt hn) (cnt_le _ _)

theorem nodeCount_wordOf {P p} (hw : (T.node a pfx big ch).WF P p) :
    nodeCount (wordOf b (.node a pfx big ch)) = cnt big ch := by
  refine nodeCount_buildNode (hb.addr_lt hn) (cnt_le _ _) ?_
  unfold cnt
  split
  · omega
  · have := hw.2.1 (by simp_all)
    omega
end

theorem rootWord_node (a pfx big ch) : rootWord (.node a pfx big ch) = wordOf 0 (.node a pfx big ch) := rfl

/-- The words of the children of a variable sized node. -/
def kidWords (ch : UInt8 → T) : List Word := (kidsOf (present ch)).map fun c => wordOf c (ch c)

theorem length_kidWords (ch : UInt8 → T) : (kidWords ch).length = cntOf (present ch) := by
  simp [kidWords, cntOf]

theorem nodeMem_small_iff {m : Mem} {a : Nat} {pfx : List UInt8} {ch : UInt8 → T} :
    NodeMem m a pfx false ch ↔
      PrefixMem m a pfx ∧ readWords m (a + prefixSlots pfx.length) (cntOf (present ch)) = kidWords ch := by
  constructor
  · intro h
    refine ⟨h.pre, ?_⟩
    apply List.ext_getElem
    · simp [length_readWords, length_kidWords]
    · intro i h1 h2
      rw [getElem_readWords]
      have hi : i < (kidsOf (present ch)).length := by simpa [kidWords] using h2
      have hp : present ch (kidsOf (present ch))[i] = true := mem_kidsOf.1 (List.getElem_mem hi)
      have := h.kid (kidsOf (present ch))[i] (.inr (present_eq_true.1 hp))
      unfold childSlot idx at this
      simp only [Bool.false_eq_true, if_false, rankOf_kidsOf hi] at this
      rw [this]
      simp [kidWords]
  · rintro ⟨h1, h2⟩
    refine ⟨h1, ?_⟩
    intro c hc
    have hp : present ch c = true := present_eq_true.2 (hc.resolve_left (by simp))
    have hg := kidsOf_getElem_rank hp
    have hlt := rankOf_lt hp
    unfold childSlot idx
    simp only [Bool.false_eq_true, if_false]
    have e : (readWords m (a + prefixSlots pfx.length) (cntOf (present ch)))[rankOf (present ch) c]? =
        (kidWords ch)[rankOf (present ch) c]? := by rw [h2]
    rw [kidWords, List.getElem?_map, hg, List.getElem?_eq_getElem (by rw [length_readWords]; exact hlt),
      getElem_readWords] at e
    simpa using e

/-- Cloning the children of a node (with another prefix). -/
theorem NodeMem.clone {m m' : Mem} {a a' : Nat} {pfx pfx' : List UInt8} {big : Bool} {ch : UInt8 → T}
    (h : NodeMem m a pfx big ch) (hp : PrefixMem m' a' pfx')
    (hw : ∀ i, i < cnt big ch → m' (a' + prefixSlots pfx'.length + i) = m (a + prefixSlots pfx.length + i)) :
    NodeMem m' a' pfx' big ch := by
  refine ⟨hp, ?_⟩
  intro c hc
  have := h.kid c hc
  unfold childSlot at *
  rw [hw _ (idx_lt hc), this]

/-! ## Nodes with two children -/

/-- Children of a node with two children. -/
def ch2 (a : UInt8) (ta : T) (b : UInt8) (tb : T) : UInt8 → T :=
  upd (upd (fun _ => .empty) a ta) b tb

theorem ch2_fst {a b : UInt8} {ta tb : T} (h : a ≠ b) : ch2 a ta b tb a = ta := by
  simp [ch2, upd_of_ne _ _ h]

theorem ch2_snd {a b : UInt8} {ta tb : T} : ch2 a ta b tb b = tb := by simp [ch2]

theorem ch2_other {a b c : UInt8} {ta tb : T} (h1 : c ≠ a) (h2 : c ≠ b) : ch2 a ta b tb c = .empty := by
  simp [ch2, upd_of_ne _ _ h1, upd_of_ne _ _ h2]

theorem kidsOf_single {f : UInt8 → Bool} {a : UInt8} (ha : f a = true) (ho : ∀ c, c ≠ a → f c = false) :
    kidsOf f = [a] := by
  have := kidsOf_insert (f := fun _ => false) (g := f) (k := a) rfl ha (fun b hb => ho b hb)
  have e : kidsOf (fun _ => false) = [] := by simp [kidsOf]
  rw [this, e]
  simp

theorem kidsOf_pair {f : UInt8 → Bool} {a b : UInt8} (ha : f a = true) (hb : f b = true)
    (ho : ∀ c, c ≠ a → c ≠ b → f c = false) (hab : a < b) : kidsOf f = [a, b] := by
  have hne : a ≠ b := UInt8.ne_of_lt hab
  have h1 : kidsOf (upd f b false) = [a] := by
    apply kidsOf_single
    · rw [upd_of_ne _ _ hne]; exact ha
    · intro c hc
      by_cases h : c = b
      · subst h; simp
      · rw [upd_of_ne _ _ h]; exact ho c hc h
  have := kidsOf_insert (f := upd f b false) (g := f) (k := b) (by simp) hb
    (fun c hc => by rw [upd_of_ne _ _ hc])
  rw [this, h1]
  have hr : rankOf (upd f b false) b = 1 := by
    unfold rankOf; rw [h1]; simp [hab]
  rw [hr]
  simp

theorem kidWords_ch2_lt {a b : UInt8} {ta tb : T} (ha : ta.isEmpty = false) (hb : tb.isEmpty = false) (h : a < b) :
    kidsOf (present (ch2 a ta b tb)) = [a, b] ∧ kidWords (ch2 a ta b tb) = [wordOf a ta, wordOf b tb] := by
  have hne := UInt8.ne_of_lt h
  have h1 := ch2_fst (ta := ta) (tb := tb) hne
  have h2 := ch2_snd (a := a) (b := b) (ta := ta) (tb := tb)
  have e : kidsOf (present (ch2 a ta b tb)) = [a, b] := by
    apply kidsOf_pair _ _ _ h
    · simp [present, h1, ha]
    · simp [present, h2, hb]
    · intro c h3 h4
      simp [present, ch2_other h3 h4]
  refine ⟨e, ?_⟩
  simp [kidWords, e, h1, h2]

theorem kidWords_ch2_gt {a b : UInt8} {ta tb : T} (ha : ta.isEmpty = false) (hb : tb.isEmpty = false) (h : b < a) :
    kidsOf (present (ch2 a ta b tb)) = [b, a] ∧ kidWords (ch2 a ta b tb) = [wordOf b tb, wordOf a ta] := by
  have hne := UInt8.ne_of_lt h
  have h1 := ch2_fst (ta := ta) (tb := tb) (Ne.symm hne)
  have h2 := ch2_snd (a := a) (b := b) (ta := ta) (tb := tb)
  have e : kidsOf (present (ch2 a ta b tb)) = [b, a] := by
    apply kidsOf_pair _ _ _ h
    · simp [present, h2, hb]
    · simp [present, h1, ha]
    · intro c h3 h4
      simp [present, ch2_other h4 h3]
  refine ⟨e, ?_⟩
  simp [kidWords, e, h1, h2]

theorem cntOf_ch2 {a b : UInt8} {ta tb : T} (ha : ta.isEmpty = false) (hb : tb.isEmpty = false) (h : a ≠ b) :
    cntOf (present (ch2 a ta b tb)) = 2 := by
  rcases UInt8.lt_or_lt_of_ne h with h | h
  · simp [cntOf, (kidWords_ch2_lt ha hb h).1]
  · simp [cntOf, (kidWords_ch2_gt ha hb h).1]

end Radix
