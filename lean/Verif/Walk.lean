import Verif.Leaves
/-!
# Minimum, maximum and counting on a memory representing a tree
-/
set_option autoImplicit false
namespace Radix
open T

/-- A memory holding the tree. -/
structure Held (P : Key → Word → Prop) (st : St) (t : T) (q : Key) : Prop where
  nb : st.nblocks ≤ maxBlockCount
  inb : t.InBlocks st.baNext
  wf : t.WF P q
  repr : t.Repr st.mem

theorem CoreN.held {P st t N} (hc : CoreN P st t N) : Held P st t [] := ⟨hc.nb, hc.inb, hc.wf, hc.repr⟩

theorem Held.at {P st t q q' t'} (h : Held P st t q) (hat : At t q' t') : Held P st t' (q ++ q') :=
  ⟨h.nb, hat.inBlocks h.inb, hat.wf h.wf, hat.repr h.repr⟩

theorem Held.view {P st q n pfx big ch} (h : Held P st (.node n pfx big ch) q) (b : UInt8) :
    View P st.baNext st.mem (wordOf b (.node n pfx big ch)) q n pfx big ch := View.of_tree h.nb h.inb h.wf h.repr.1

theorem Held.kid {P st q n pfx big ch} (h : Held P st (.node n pfx big ch) q) (c : UInt8) : Held P st (ch c) (q ++ pfx ++ [c]) :=
  ⟨h.nb, h.inb.2 c, h.wf.2.2 c, h.repr.2 c⟩

theorem Held.isLeaf {P st t q} (h : Held P st t q) (b : UInt8) : isLeaf (wordOf b t) = t.isLf :=
  isLeaf_wordOf (Nat.le_trans st.baNext_le h.nb) h.inb

theorem Held.zero {P st t q} (h : Held P st t q) (b : UInt8) : wordOf b t = 0 ↔ t.isEmpty = true :=
  wordOf_eq_zero (Nat.le_trans st.baNext_le h.nb) h.inb

/-! ## Minimum and maximum -/

/-- The leaf reached by always taking the first child. -/
def T.first : T → Option (Key × Word)
  | .empty => none
  | .leaf k v => some (k, v)
  | .node _ _ _ ch =>
    match allBytes.find? fun c => !(ch c).isEmpty with
    | none => none
    | some c => (ch c).first

/-- The leaf reached by always taking the last child. -/
def T.last : T → Option (Key × Word)
  | .empty => none
  | .leaf k v => some (k, v)
  | .node _ _ _ ch =>
    match allBytes.reverse.find? fun c => !(ch c).isEmpty with
    | none => none
    | some c => (ch c).last

theorem leavesAt_empty {ch : UInt8 → T} : ∀ {l : List UInt8}, (∀ c ∈ l, (ch c).isEmpty = true) → leavesAt ch l = []
  | [], _ => rfl
  | c :: l, h => by
    unfold leavesAt
    rw [List.flatMap_cons, T.isEmpty_eq_true.1 (h c (by simp))]
    exact leavesAt_empty fun d hd => h d (by simp [hd])

theorem T.first_spec : ∀ {t : T} {x : Key × Word}, t.first = some x → t.leaves.head? = some x
  | .leaf k v, x, h => by cases h; rfl
  | .node _ _ _ ch, x, h => by
    simp only [T.first] at h
    split at h
    · cases h
    · rename_i c hc
      obtain ⟨_, l, r, e, hl⟩ := List.find?_eq_some_iff_append.1 hc
      have h1 := T.first_spec h
      have h2 : leavesAt ch l = [] := leavesAt_empty fun d hd => by simpa using hl d hd
      simp only [T.leaves, e, List.flatMap_append, List.flatMap_cons]
      rw [show l.flatMap (fun c => (ch c).leaves) = [] from h2, List.nil_append, List.head?_append, h1]; rfl

theorem T.last_spec : ∀ {t : T} {x : Key × Word}, t.last = some x → t.leaves.getLast? = some x
  | .leaf k v, x, h => by cases h; rfl
  | .node _ _ _ ch, x, h => by
    simp only [T.last] at h
    split at h
    · cases h
    · rename_i c hc
      obtain ⟨_, l, r, e, hl⟩ := List.find?_eq_some_iff_append.1 hc
      have h1 := T.last_spec h
      have h2 : leavesAt ch l.reverse = [] := leavesAt_empty fun d hd => by simpa using hl d (by simpa using hd)
      have e' : allBytes = r.reverse ++ c :: l.reverse := by
        have := congrArg List.reverse e
        simpa using this
      simp only [T.leaves, e', List.flatMap_append, List.flatMap_cons]
      rw [show l.reverse.flatMap (fun c => (ch c).leaves) = [] from h2, List.append_nil, List.getLast?_append, h1]; rfl

/-- Every node has a leaf below it. -/
def T.Full : T → Prop
  | .empty => True
  | .leaf _ _ => True
  | .node _ _ _ ch => (∃ c, (ch c).isEmpty = false) ∧ ∀ c, (ch c).Full

theorem T.Full.has : ∀ {t : T}, t.Full → t.isEmpty = false → ∃ k v, t.Has k v
  | .leaf k v, _, _ => ⟨k, v, rfl, rfl⟩
  | .node _ _ _ ch, h, _ => by
    obtain ⟨⟨c, hc⟩, h2⟩ := h
    obtain ⟨k, v, hk⟩ := (h2 c).has hc
    exact ⟨k, v, c, hk⟩

theorem T.Full.at {t q t'} (hat : At t q t') : t.Full → t'.Full := by
  induction hat with
  | here => exact id
  | down _ ih => intro h; exact ih (h.2 _)

theorem T.Dense.full {P} {t : T} : ∀ {q}, t.Dense → t.WF P q → t.Full := by
  induction t with
  | empty => intro _ _ _; trivial
  | leaf => intro _ _ _; trivial
  | node n pfx big ch ih =>
    intro q hd hwf
    refine ⟨?_, fun c => ih c (hd.2 c) (hwf.2.2 c)⟩
    have hpos : 0 < cntOf (present ch) := by
      cases hb : big with
      | true => have := hd.1 hb; omega
      | false => have := hwf.2.1 hb; omega
    obtain ⟨c, hc⟩ := List.exists_mem_of_length_pos hpos
    exact ⟨c, present_eq_true.1 (mem_kidsOf.1 hc)⟩

theorem T.Full.first : ∀ {t : T}, t.Full → t.isEmpty = false → ∃ x, t.first = some x
  | .leaf k v, _, _ => ⟨_, rfl⟩
  | .node _ _ _ ch, h, _ => by
    simp only [T.first]
    obtain ⟨⟨c, hc⟩, h2⟩ := h
    split
    · rename_i hn
      have := List.find?_eq_none.1 hn c (mem_allBytes c)
      simp [hc] at this
    · rename_i d hd
      have := List.find?_some hd
      exact (h2 d).first (by simpa using this)

theorem T.Full.last : ∀ {t : T}, t.Full → t.isEmpty = false → ∃ x, t.last = some x
  | .leaf k v, _, _ => ⟨_, rfl⟩
  | .node _ _ _ ch, h, _ => by
    simp only [T.last]
    obtain ⟨⟨c, hc⟩, h2⟩ := h
    split
    · rename_i hn
      have := List.find?_eq_none.1 hn c (by simp [mem_allBytes c])
      simp [hc] at this
    · rename_i d hd
      have := List.find?_some hd
      exact (h2 d).last (by simpa using this)

theorem find_slotsOf (big : Bool) (ch : UInt8 → T) :
    (slotsOf big ch).find? (fun c => !(ch c).isEmpty) = allBytes.find? fun c => !(ch c).isEmpty := by
  unfold slotsOf
  split
  · rfl
  · unfold kidsOf
    rw [List.find?_filter]
    congr 1
    funext c
    simp [present]

theorem find_reverse_slotsOf (big : Bool) (ch : UInt8 → T) :
    (slotsOf big ch).reverse.find? (fun c => !(ch c).isEmpty) = allBytes.reverse.find? fun c => !(ch c).isEmpty := by
  unfold slotsOf
  split
  · rfl
  · unfold kidsOf
    rw [← List.filter_reverse, List.find?_filter]
    congr 1
    funext c
    simp [present]

theorem View.find_words {P nb m raw q n pfx big ch} (hv : View P nb m raw q n pfx big ch) (l : List UInt8) :
    (l.map fun c => wordOf c (ch c)).find? (· ≠ 0) = (l.find? fun c => !(ch c).isEmpty).map fun c => wordOf c (ch c) := by
  rw [List.find?_map]
  congr 2
  funext c
  simp only [Function.comp, ne_eq]
  have := hv.kid_zero c
  cases h : (ch c).isEmpty <;> simp_all

/-- A variable sized node has a first and a last child. -/
theorem View.small_ends {P nb m raw q n pfx big ch} (hv : View P nb m raw q n pfx big ch) (hb : big = false) :
    ∃ c d, (slotsOf big ch)[0]? = some c ∧ allBytes.find? (fun c => !(ch c).isEmpty) = some c ∧
      (slotsOf big ch)[cnt big ch - 1]? = some d ∧ allBytes.reverse.find? (fun c => !(ch c).isEmpty) = some d := by
  have hlen := length_slotsOf big ch
  have h2 : 2 ≤ cnt big ch := by
    subst hb
    exact (hv.wf.2.1 rfl).1
  have hall : ∀ c ∈ slotsOf big ch, (ch c).isEmpty = false := by
    intro c hc
    rcases mem_slotsOf.1 hc with h | h
    · rw [hb] at h; cases h
    · exact h
  rw [← find_slotsOf big ch, ← find_reverse_slotsOf big ch]
  have hgl : (slotsOf big ch)[cnt big ch - 1]? = (slotsOf big ch).reverse.head? := by
    rw [List.head?_reverse, List.getLast?_eq_getElem?, hlen]
  rw [hgl]
  cases hs : slotsOf big ch with
  | nil => rw [hs] at hlen; simp at hlen; omega
  | cons c l =>
    have hr : (c :: l).reverse ≠ [] := by simp
    cases hs' : (c :: l).reverse with
    | nil => exact absurd hs' hr
    | cons d l' =>
      refine ⟨c, d, rfl, ?_, rfl, ?_⟩
      · rw [List.find?_cons_of_pos]
        simp [hall c (by rw [hs]; simp)]
      · rw [List.find?_cons_of_pos]
        have hd : d ∈ (c :: l).reverse := by rw [hs']; simp
        have hd' : d ∈ slotsOf big ch := by rw [hs]; exact List.mem_reverse.1 hd
        simp [hall d hd']

theorem minLoop_tree {P} {st : St} {t : T} : ∀ {q}, Held P st t q → t.isNode = true → ∃ N, ∀ n ≥ N, ∀ b : UInt8,
    minLoop st n (wordOf b t) = .ok (leafAnswer t.first) := by
  induction t with
  | empty => intro _ _ h; cases h
  | leaf => intro _ _ h; cases h
  | node a pfx big ch ih =>
    intro q hh _
    -- the child the loop goes on with
    have hnext : ∃ N, ∀ n ≥ N, ∀ c, allBytes.find? (fun c => !(ch c).isEmpty) = some c → (ch c).isNode = true →
        minLoop st n (wordOf c (ch c)) = .ok (leafAnswer (ch c).first) := by
      cases hf : allBytes.find? (fun c => !(ch c).isEmpty) with
      | none => exact ⟨0, fun _ _ _ h => by cases h⟩
      | some c =>
        by_cases hn : (ch c).isNode = true
        · obtain ⟨N, hN⟩ := ih c (hh.kid c) hn
          exact ⟨N, fun n hn c' h _ => by cases h; exact hN n hn _⟩
        · exact ⟨0, fun _ _ c' h h' => by cases h; exact absurd h' hn⟩
    obtain ⟨N, hN⟩ := hnext
    refine ⟨N + 1, fun n hn b => ?_⟩
    obtain ⟨n, rfl⟩ : ∃ m, n = m + 1 := ⟨n - 1, by omega⟩
    have hv := hh.view b
    have hN' := hN n (by omega)
    unfold minLoop
    rw [hv.addr, nodeData_view hv]
    simp only [bind, Except.bind]
    rw [hv.skip]
    simp only
    -- the result once the child is known
    have hres : ∀ c, allBytes.find? (fun c => !(ch c).isEmpty) = some c →
        (if isLeaf (wordOf c (ch c)) = true then (pure (some (leafValue (wordOf c (ch c)))) : Res _) else minLoop st n (wordOf c (ch c))) =
          .ok (leafAnswer (T.node a pfx big ch).first) := by
      intro c hc
      have he : (ch c).isEmpty = false := by simpa using List.find?_some hc
      rw [hv.kid_isLeaf]
      have e : (T.node a pfx big ch).first = (ch c).first := by simp only [T.first, hc]
      rw [e]
      cases hck : ch c with
      | empty => rw [hck] at he; cases he
      | leaf lk lv => simp [T.first, leafAnswer, wordOf, pure, Except.pure]
      | node => simpa [hck] using hN' c hc (by rw [hck]; rfl)
    by_cases hb : big = true
    · rw [if_pos (hv.big_iff.2 hb), hv.count, hv.wordsAll rfl]
      simp only [hv.find_words, find_slotsOf]
      cases hf : allBytes.find? (fun c => !(ch c).isEmpty) with
      | none => simp [T.first, hf, leafAnswer, pure, Except.pure]
      | some c => exact hres c hf
    · rw [if_neg (by rw [hv.big_iff]; exact hb)]
      obtain ⟨c, d, h1, h2, -, -⟩ := hv.small_ends (by simpa using hb)
      obtain ⟨h3, h4⟩ := List.getElem?_eq_some_iff.1 h1
      rw [hv.getSlot h3, h4]
      exact hres c h2

theorem maxLoop_tree {P} {st : St} {t : T} : ∀ {q}, Held P st t q → t.isNode = true → ∃ N, ∀ n ≥ N, ∀ b : UInt8,
    maxLoop st n (wordOf b t) = .ok (leafAnswer t.last) := by
  induction t with
  | empty => intro _ _ h; cases h
  | leaf => intro _ _ h; cases h
  | node a pfx big ch ih =>
    intro q hh _
    have hnext : ∃ N, ∀ n ≥ N, ∀ c, allBytes.reverse.find? (fun c => !(ch c).isEmpty) = some c → (ch c).isNode = true →
        maxLoop st n (wordOf c (ch c)) = .ok (leafAnswer (ch c).last) := by
      cases hf : allBytes.reverse.find? (fun c => !(ch c).isEmpty) with
      | none => exact ⟨0, fun _ _ _ h => by cases h⟩
      | some c =>
        by_cases hn : (ch c).isNode = true
        · obtain ⟨N, hN⟩ := ih c (hh.kid c) hn
          exact ⟨N, fun n hn c' h _ => by cases h; exact hN n hn _⟩
        · exact ⟨0, fun _ _ c' h h' => by cases h; exact absurd h' hn⟩
    obtain ⟨N, hN⟩ := hnext
    refine ⟨N + 1, fun n hn b => ?_⟩
    obtain ⟨n, rfl⟩ : ∃ m, n = m + 1 := ⟨n - 1, by omega⟩
    have hv := hh.view b
    have hN' := hN n (by omega)
    unfold maxLoop
    rw [hv.addr, nodeData_view hv]
    simp only [bind, Except.bind]
    rw [hv.skip]
    simp only
    have hres : ∀ c, allBytes.reverse.find? (fun c => !(ch c).isEmpty) = some c →
        (if isLeaf (wordOf c (ch c)) = true then (pure (some (leafValue (wordOf c (ch c)))) : Res _) else maxLoop st n (wordOf c (ch c))) =
          .ok (leafAnswer (T.node a pfx big ch).last) := by
      intro c hc
      have he : (ch c).isEmpty = false := by simpa using List.find?_some hc
      rw [hv.kid_isLeaf]
      have e : (T.node a pfx big ch).last = (ch c).last := by simp only [T.last, hc]
      rw [e]
      cases hck : ch c with
      | empty => rw [hck] at he; cases he
      | leaf lk lv => simp [T.last, leafAnswer, wordOf, pure, Except.pure]
      | node => simpa [hck] using hN' c hc (by rw [hck]; rfl)
    by_cases hb : big = true
    · rw [if_pos (hv.big_iff.2 hb), hv.wordsAll (by simp [cnt, hb])]
      simp only [← List.map_reverse, hv.find_words, find_reverse_slotsOf]
      cases hf : allBytes.reverse.find? (fun c => !(ch c).isEmpty) with
      | none => simp [T.last, hf, leafAnswer, pure, Except.pure]
      | some c => exact hres c hf
    · rw [if_neg (by rw [hv.big_iff]; exact hb), hv.count]
      obtain ⟨c, d, -, -, h1, h2⟩ := hv.small_ends (by simpa using hb)
      obtain ⟨h3, h4⟩ := List.getElem?_eq_some_iff.1 h1
      rw [hv.getSlot h3, h4]
      exact hres d h2

end Radix
