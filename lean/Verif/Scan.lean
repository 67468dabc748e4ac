import Verif.Walk
/-!
# Walking over all leaves: the scan of a node and the stack
-/
set_option autoImplicit false
namespace Radix
open T

/-- The values of leaves, as returned by the tree. -/
def vals (l : List (Key × Word)) : List Word := l.map fun x => trunc55 x.2

@[simp] theorem vals_nil : vals [] = [] := rfl
@[simp] theorem vals_append (a b : List (Key × Word)) : vals (a ++ b) = vals a ++ vals b := List.map_append
@[simp] theorem vals_length (a : List (Key × Word)) : (vals a).length = a.length := List.length_map _

@[simp] theorem leavesAt_nil (ch : UInt8 → T) : leavesAt ch [] = [] := rfl
@[simp] theorem leavesAt_cons (ch : UInt8 → T) (c : UInt8) (cs : List UInt8) :
    leavesAt ch (c :: cs) = (ch c).leaves ++ leavesAt ch cs := List.flatMap_cons

/-- The children from the first non-empty one on. -/
def skipEmpty (ch : UInt8 → T) (cs : List UInt8) : List UInt8 := cs.dropWhile fun c => (ch c).isEmpty

theorem leavesAt_skipEmpty (ch : UInt8 → T) : ∀ cs, leavesAt ch (skipEmpty ch cs) = leavesAt ch cs
  | [] => rfl
  | c :: cs => by
    unfold skipEmpty
    rw [List.dropWhile_cons]
    split
    · rename_i h
      rw [leavesAt_cons, T.isEmpty_eq_true.1 h]
      exact leavesAt_skipEmpty ch cs
    · rfl

theorem skipEmpty_suffix (ch : UInt8 → T) (cs : List UInt8) : skipEmpty ch cs <:+ cs := List.dropWhile_suffix _

theorem skipEmpty_head {ch : UInt8 → T} {cs : List UInt8} {c : UInt8} {r : List UInt8} (h : skipEmpty ch cs = c :: r) :
    (ch c).isEmpty = false := by
  have := List.head?_dropWhile_not (p := fun c => (ch c).isEmpty) (l := cs)
  unfold skipEmpty at h
  rw [h] at this
  simpa using this

/-- The scan of the children at the bytes `cs`: the leaves up to the first node, that node and the bytes after it. -/
def scanG (ch : UInt8 → T) : List UInt8 → List (Key × Word) × Option (UInt8 × List UInt8)
  | [] => ([], none)
  | c :: cs =>
    match ch c with
    | .empty => scanG ch cs
    | .leaf k v => ((k, v) :: (scanG ch cs).1, (scanG ch cs).2)
    | .node .. => ([], some (c, cs))

theorem scanG_leaves {ch : UInt8 → T} : ∀ {cs : List UInt8} {l r}, scanG ch cs = (l, r) →
    leavesAt ch cs = l ++ (match r with | none => [] | some (c, rest) => (ch c).leaves ++ leavesAt ch rest)
  | [], l, r, h => by cases h; rfl
  | c :: cs, l, r, h => by
    rw [leavesAt_cons]
    simp only [scanG] at h
    split at h
    · rename_i e; rw [e]; exact scanG_leaves h
    · rename_i k v e
      cases h
      have := scanG_leaves (ch := ch) (cs := cs) rfl
      rw [e, this]; rfl
    · cases h; rfl

theorem scanG_suffix {ch : UInt8 → T} : ∀ {cs : List UInt8} {l c rest}, scanG ch cs = (l, some (c, rest)) →
    ∃ pre, cs = pre ++ c :: rest ∧ (ch c).isNode = true
  | [], l, c, rest, h => by simp [scanG] at h
  | d :: cs, l, c, rest, h => by
    simp only [scanG] at h
    split at h
    · obtain ⟨pre, e, hn⟩ := scanG_suffix h
      exact ⟨d :: pre, by rw [e]; rfl, hn⟩
    · have h2 : (scanG ch cs).2 = some (c, rest) := (Prod.mk.inj h).2
      obtain ⟨pre, e, hn⟩ := scanG_suffix (l := (scanG ch cs).1) (c := c) (rest := rest) (Prod.ext rfl h2)
      exact ⟨d :: pre, by rw [e]; rfl, hn⟩
    · rename_i e
      cases h
      exact ⟨[], rfl, by rw [e]; rfl⟩

/-- The number of nodes below the children at the bytes `cs`. -/
def nodesAt (ch : UInt8 → T) (cs : List UInt8) : Nat := (cs.map fun c => (ch c).nodes).sum

@[simp] theorem nodesAt_nil (ch : UInt8 → T) : nodesAt ch [] = 0 := rfl
@[simp] theorem nodesAt_cons (ch : UInt8 → T) (c : UInt8) (cs : List UInt8) :
    nodesAt ch (c :: cs) = (ch c).nodes + nodesAt ch cs := by simp [nodesAt]
@[simp] theorem nodesAt_append (ch : UInt8 → T) (a b : List UInt8) : nodesAt ch (a ++ b) = nodesAt ch a + nodesAt ch b := by
  simp [nodesAt]

theorem nodesAt_skipEmpty (ch : UInt8 → T) : ∀ cs, nodesAt ch (skipEmpty ch cs) = nodesAt ch cs
  | [] => rfl
  | c :: cs => by
    unfold skipEmpty
    rw [List.dropWhile_cons]
    split
    · rename_i h
      rw [nodesAt_cons, T.isEmpty_eq_true.1 h]
      simp only [T.nodes, Nat.zero_add]
      exact nodesAt_skipEmpty ch cs
    · rfl

theorem scanG_nodes {ch : UInt8 → T} : ∀ {cs : List UInt8} {l r}, scanG ch cs = (l, r) →
    nodesAt ch cs = (match r with | none => 0 | some (c, rest) => (ch c).nodes + nodesAt ch rest)
  | [], l, r, h => by cases h; rfl
  | c :: cs, l, r, h => by
    rw [nodesAt_cons]
    simp only [scanG] at h
    split at h
    · rename_i e; rw [e]; simpa [T.nodes] using scanG_nodes h
    · rename_i k v e
      cases h
      have := scanG_nodes (ch := ch) (cs := cs) rfl
      rw [e, this]; simp [T.nodes]
    · cases h; rfl

theorem nodesAt_filter (ch : UInt8 → T) : ∀ cs, nodesAt ch (cs.filter (present ch)) = nodesAt ch cs
  | [] => rfl
  | c :: cs => by
    rw [List.filter_cons]
    split
    · rw [nodesAt_cons, nodesAt_cons, nodesAt_filter ch cs]
    · rename_i h
      have : (ch c).isEmpty = true := by simpa [present] using h
      rw [nodesAt_cons, T.isEmpty_eq_true.1 this, nodesAt_filter ch cs]; simp [T.nodes]

theorem nodesAt_slotsOf (n : Nat) (pfx : List UInt8) (big : Bool) (ch : UInt8 → T) :
    (T.node n pfx big ch).nodes = 1 + nodesAt ch (slotsOf big ch) := by
  have : nodesAt ch (slotsOf big ch) = nodesAt ch allBytes := by
    unfold slotsOf
    split
    · rfl
    · exact nodesAt_filter ch allBytes
  rw [this]; rfl

/-! ## The scan in memory -/

section
variable {P : Key → Word → Prop} {nb : Nat} {m : Mem} {raw : Word} {q : Key} {n : Nat} {pfx : List UInt8} {big : Bool}
  {ch : UInt8 → T} (hv : View P nb m raw q n pfx big ch)
include hv

theorem View.getAt {pre : List UInt8} {c : UInt8} {rest : List UInt8} (h : slotsOf big ch = pre ++ c :: rest) :
    Slice.get m ⟨n + prefixSlots pfx.length, blockSlots - n % blockSlots - prefixSlots pfx.length⟩ pre.length =
      .ok (wordOf c (ch c)) := by
  have hi : pre.length < (slotsOf big ch).length := by rw [h]; simp
  rw [hv.getSlot hi]
  have : (slotsOf big ch)[pre.length] = c := by simp [h]
  rw [this]

omit hv in
theorem cnt_split {pre cs : List UInt8} (h : slotsOf big ch = pre ++ cs) : cnt big ch = pre.length + cs.length := by
  rw [← length_slotsOf, h, List.length_append]

theorem View.scanKids : ∀ {cs pre : List UInt8}, slotsOf big ch = pre ++ cs →
    scanKids m ⟨n + prefixSlots pfx.length, blockSlots - n % blockSlots - prefixSlots pfx.length⟩ cs.length pre.length =
      .ok (vals (scanG ch cs).1, (scanG ch cs).2.map fun x => (cnt big ch - (x.2.length + 1), wordOf x.1 (ch x.1)))
  | [], _, _ => rfl
  | c :: cs, pre, h => by
    have ih := View.scanKids (cs := cs) (pre := pre ++ [c]) (by simpa using h)
    simp only [List.length_append, List.length_cons, List.length_nil, Nat.zero_add] at ih
    simp only [List.length_cons, Radix.scanKids, bind, Except.bind]
    rw [hv.getAt h]
    simp only
    rw [hv.kid_isLeaf]
    cases hck : ch c with
    | empty =>
      rw [if_pos (by simp [wordOf])]
      simp only [scanG, hck]
      exact ih
    | leaf lk lv =>
      rw [if_neg (by rw [← hck, hv.kid_zero, hck]; simp)]
      simp only [T.isLf, if_true]
      rw [ih]
      simp only [scanG, hck, vals, List.map_cons, wordOf, leafValue_buildLeaf, pure, Except.pure]
    | node =>
      rw [if_neg (by rw [← hck, hv.kid_zero, hck]; simp)]
      simp only [T.isLf, Bool.false_eq_true, if_false, pure, Except.pure]
      simp only [scanG, hck, vals_nil, Option.map_some]
      have := cnt_split h
      simp only [List.length_cons] at this
      rw [show cnt big ch - (cs.length + 1) = pre.length by omega]

theorem View.nextKid : ∀ {cs pre : List UInt8}, slotsOf big ch = pre ++ cs →
    nextKid m ⟨n + prefixSlots pfx.length, blockSlots - n % blockSlots - prefixSlots pfx.length⟩ cs.length pre.length =
      .ok (cnt big ch - (skipEmpty ch cs).length)
  | [], pre, h => by
    have := cnt_split h
    simp only [List.length_nil] at this
    simp [Radix.nextKid, skipEmpty, this]
  | c :: cs, pre, h => by
    have ih := View.nextKid (cs := cs) (pre := pre ++ [c]) (by simpa using h)
    simp only [List.length_append, List.length_cons, List.length_nil, Nat.zero_add] at ih
    simp only [List.length_cons, Radix.nextKid, bind, Except.bind]
    rw [hv.getAt h]
    simp only
    cases hck : (ch c).isEmpty with
    | true =>
      rw [if_neg (fun h => h ((hv.kid_zero c).2 hck)), ih]
      unfold skipEmpty
      rw [List.dropWhile_cons, if_pos hck]
    | false =>
      rw [if_pos (by rw [ne_eq, hv.kid_zero, hck]; simp)]
      unfold skipEmpty
      rw [List.dropWhile_cons, if_neg (by simp [hck])]
      have := cnt_split h
      simp only [pure, Except.pure]
      congr 1
      omega

theorem View.afterKid {cs pre : List UInt8} {c : UInt8} (h : slotsOf big ch = pre ++ c :: cs) :
    afterKid m ⟨n + prefixSlots pfx.length, blockSlots - n % blockSlots - prefixSlots pfx.length⟩ (cnt big ch) pre.length =
      .ok (cnt big ch - (skipEmpty ch cs).length) := by
  have hc := cnt_split h
  simp only [List.length_cons] at hc
  unfold Radix.afterKid
  by_cases hb : big = true
  · rw [if_pos (by rw [← hv.count]; exact hv.big_iff.2 hb)]
    have := hv.nextKid (cs := cs) (pre := pre ++ [c]) (by simpa using h)
    simp only [List.length_append, List.length_cons, List.length_nil, Nat.zero_add] at this
    rw [show cnt big ch - (pre.length + 1) = cs.length by omega]
    exact this
  · rw [if_neg (by rw [← hv.count, hv.big_iff]; exact hb)]
    have : skipEmpty ch cs = cs := by
      cases cs with
      | nil => rfl
      | cons d r =>
        unfold skipEmpty
        rw [List.dropWhile_cons, if_neg]
        have hd : d ∈ slotsOf big ch := by rw [h]; simp
        rcases mem_slotsOf.1 hd with h | h
        · exact absurd h hb
        · simp [h]
    rw [this]
    congr 1
    omega

end

/-! ## The stack -/

/-- A frame of the stack: a node, the byte of the reference to it, and the bytes of the children still to do. -/
structure Fr where
  b : UInt8
  n : Nat
  pfx : List UInt8
  big : Bool
  ch : UInt8 → T
  rest : List UInt8

namespace Fr
/-- The node of a frame. -/
def t (f : Fr) : T := .node f.n f.pfx f.big f.ch
/-- The position stored for a frame. -/
def pos (f : Fr) : ItPos := ⟨wordOf f.b f.t, cnt f.big f.ch - f.rest.length, !f.rest.isEmpty⟩
/-- The leaves a frame has still to deliver. -/
def rem (f : Fr) : List (Key × Word) := leavesAt f.ch f.rest
/-- Bound for the number of rounds. -/
def wt (f : Fr) : Nat := 1 + 2 * nodesAt f.ch f.rest
end Fr

/-- The leaves a stack has still to deliver. -/
def remS (S : List Fr) : List (Key × Word) := S.flatMap Fr.rem

@[simp] theorem remS_nil : remS [] = [] := rfl
@[simp] theorem remS_cons (f : Fr) (S : List Fr) : remS (f :: S) = f.rem ++ remS S := List.flatMap_cons

/-- Bound for the number of rounds. -/
def wtS (S : List Fr) : Nat := (S.map Fr.wt).sum

@[simp] theorem wtS_nil : wtS [] = 0 := rfl
@[simp] theorem wtS_cons (f : Fr) (S : List Fr) : wtS (f :: S) = f.wt + wtS S := by simp [wtS]

/-- The stack `S` (innermost frame first) leads from `t0` along the bytes `p` to the subtree `t`, referenced with byte `b`. -/
inductive Zip (b0 : UInt8) (t0 : T) : List Fr → List UInt8 → UInt8 → T → Prop
  | nil : Zip b0 t0 [] [] b0 t0
  | cons {S p b n pfx big ch pre c rest} : Zip b0 t0 S p b (.node n pfx big ch) → slotsOf big ch = pre ++ c :: rest →
      Zip b0 t0 (⟨b, n, pfx, big, ch, skipEmpty ch rest⟩ :: S) (p ++ pfx ++ [c]) c (ch c)

theorem Zip.at {b0 t0 S p b t} (h : Zip b0 t0 S p b t) : At t0 p t := by
  induction h with
  | nil => exact .here _
  | @cons S p b n pfx big ch pre c rest _ _ ih =>
    have h1 : At (T.node n pfx big ch) (pfx ++ [c]) (ch c) := .down (.here _)
    have := ih.trans h1
    simpa using this

/-- The frame on top of the stack. -/
theorem Zip.top {b0 t0 f S p b t} (h : Zip b0 t0 (f :: S) p b t) :
    (∃ p', Zip b0 t0 S p' f.b f.t) ∧ (∃ pre, slotsOf f.big f.ch = pre ++ f.rest) ∧
      (∀ c r, f.rest = c :: r → (f.ch c).isEmpty = false) := by
  cases h with
  | @cons _ p' b' n pfx big ch pre _ rest h1 h2 =>
    refine ⟨⟨_, h1⟩, ?_, fun _ _ h => skipEmpty_head h⟩
    obtain ⟨pre', e⟩ := skipEmpty_suffix ch rest
    have h2' : slotsOf big ch = (pre ++ [b]) ++ rest := by rw [h2, List.append_assoc]; rfl
    exact ⟨_ ++ pre', by rw [List.append_assoc, e]; exact h2'⟩

end Radix
