import Verif.Bytes
import Verif.Prefix
/-!
# The ghost tree

An inductive tree that the memory represents.  Nodes carry their address, so that the memory contents of the
represented part are determined by the tree.  Nothing here is part of the model of the code; it is used in
invariants only.
-/
namespace Radix

/-- Ghost tree: empty slot, leaf with its full key and value, or node with address, prefix, layout
(`big`: 256 slots) and children by byte. -/
inductive T where
  | empty
  | leaf (key : Key) (v : Word)
  | node (addr : Nat) (pfx : List UInt8) (big : Bool) (ch : UInt8 → T)

namespace T

def isEmpty : T → Bool
  | empty => true
  | _ => false

def isLf : T → Bool
  | leaf _ _ => true
  | _ => false

def isNode : T → Bool
  | node _ _ _ _ => true
  | _ => false

@[simp] theorem isEmpty_empty : isEmpty empty = true := rfl
@[simp] theorem isEmpty_leaf (k v) : isEmpty (leaf k v) = false := rfl
@[simp] theorem isEmpty_node (a p b c) : isEmpty (node a p b c) = false := rfl
@[simp] theorem isLf_empty : isLf empty = false := rfl
@[simp] theorem isLf_leaf (k v) : isLf (leaf k v) = true := rfl
@[simp] theorem isLf_node (a p b c) : isLf (node a p b c) = false := rfl
@[simp] theorem isNode_empty : isNode empty = false := rfl
@[simp] theorem isNode_leaf (k v) : isNode (leaf k v) = false := rfl
@[simp] theorem isNode_node (a p b c) : isNode (node a p b c) = true := rfl

theorem isEmpty_eq_true {t : T} : t.isEmpty = true ↔ t = empty := by cases t <;> simp

end T

open T

/-- Which children are present. -/
def present (ch : UInt8 → T) : UInt8 → Bool := fun b => !(ch b).isEmpty

/-- Value of the count field of a node. -/
def cnt (big : Bool) (ch : UInt8 → T) : Nat := if big then 256 else cntOf (present ch)

/-- Slot index of child `c` after the prefix. -/
def idx (big : Bool) (ch : UInt8 → T) (c : UInt8) : Nat := if big then c.toNat else rankOf (present ch) c

/-- Number of slots of a node. -/
def nodeSize (pfx : List UInt8) (big : Bool) (ch : UInt8 → T) : Nat := cnt big ch + prefixSlots pfx.length

/-- Slot holding the word of child `c`. -/
def childSlot (addr : Nat) (pfx : List UInt8) (big : Bool) (ch : UInt8 → T) (c : UInt8) : Nat :=
  addr + prefixSlots pfx.length + idx big ch c

/-- The word referring to a tree, under key byte `b`. -/
def wordOf (b : UInt8) : T → Word
  | .empty => 0
  | .leaf _ v => buildLeaf b v
  | .node a pfx big ch => buildNode b a (cnt big ch) pfx.length

/-- The root word. -/
def rootWord : T → Word
  | .empty => 0
  | .leaf k v => buildLeaf (k.headD 0) v
  | .node a pfx big ch => buildNode 0 a (cnt big ch) pfx.length

/-- The memory of one node. -/
structure NodeMem (m : Mem) (addr : Nat) (pfx : List UInt8) (big : Bool) (ch : UInt8 → T) : Prop where
  pre : PrefixMem m addr pfx
  kid : ∀ c, big = true ∨ (ch c).isEmpty = false → m (childSlot addr pfx big ch c) = wordOf c (ch c)

/-- Every node of the tree is in memory. -/
def T.Repr (m : Mem) : T → Prop
  | .empty => True
  | .leaf _ _ => True
  | .node a pfx big ch => NodeMem m a pfx big ch ∧ ∀ c, (ch c).Repr m

/-- Sum over all bytes. -/
def sumB (f : UInt8 → Nat) : Nat := (allBytes.map f).sum

/-- Number of nodes of the tree whose slots include `x`. -/
def T.cover (x : Nat) : T → Nat
  | .empty => 0
  | .leaf _ _ => 0
  | .node a pfx big ch => (if a ≤ x ∧ x < a + nodeSize pfx big ch then 1 else 0) + sumB fun c => (ch c).cover x

/-- Longest key length handled (a prefix must fit in a block together with 256 children, see `DESIGN.md`). -/
def maxKeyLen : Nat := 2000000

/-- A path with branches: bounded length, and some admissible key continues it. -/
def Branch (P : Key → Word → Prop) (p : Key) : Prop :=
  p.length < maxKeyLen ∧ ∃ k v c, P k v ∧ p ++ [c] <+: k

/-- Well-formedness of a tree below path `p`; `P` restricts the stored pairs. -/
def T.WF (P : Key → Word → Prop) : Key → T → Prop
  | _, .empty => True
  | p, .leaf k v => p <+: k ∧ P k v
  | p, .node _ pfx big ch =>
    Branch P (p ++ pfx) ∧ (big = false → 2 ≤ cntOf (present ch) ∧ cntOf (present ch) ≤ 127) ∧
      ∀ c, (ch c).WF P (p ++ pfx ++ [c])

/-- Address conditions of the nodes: nonzero, inside one of the first `n` blocks. -/
def T.InBlocks (n : Nat) : T → Prop
  | .empty => True
  | .leaf _ _ => True
  | .node a pfx big ch => (0 < a ∧ a / blockSlots < n ∧ a % blockSlots + nodeSize pfx big ch ≤ blockSlots) ∧
      ∀ c, (ch c).InBlocks n

/-- The pair `(k, v)` is stored in the tree. -/
def T.Has : T → Key → Word → Prop
  | .empty, _, _ => False
  | .leaf k v, k', v' => k = k' ∧ v = v'
  | .node _ _ _ ch, k', v' => ∃ c, (ch c).Has k' v'

/-- `At t p t'`: `t'` is the subtree of `t` starting at path `p`. -/
inductive At : T → Key → T → Prop
  | here (t : T) : At t [] t
  | down {a pfx big ch c r t} : At (ch c) r t → At (.node a pfx big ch) (pfx ++ c :: r) t

/-! ## Contexts -/

/-- One node on the way to a hole, with the byte of the child containing the hole. -/
structure Frame where
  addr : Nat
  pfx : List UInt8
  big : Bool
  ch : UInt8 → T
  c : UInt8

abbrev Ctx := List Frame

/-- Fill the hole (outermost frame first). -/
def plug : Ctx → T → T
  | [], t => t
  | f :: C, t => .node f.addr f.pfx f.big (upd f.ch f.c (plug C t))

/-- Path of the hole. -/
def pathOf : Ctx → Key
  | [] => []
  | f :: C => f.pfx ++ f.c :: pathOf C

@[simp] theorem plug_append (C D : Ctx) (t : T) : plug (C ++ D) t = plug C (plug D t) := by
  induction C with
  | nil => rfl
  | cons f C ih => simp [plug, ih]

@[simp] theorem pathOf_append (C D : Ctx) : pathOf (C ++ D) = pathOf C ++ pathOf D := by
  induction C with
  | nil => rfl
  | cons f C ih => simp [pathOf, ih]

theorem upd_self {α β : Type} [DecidableEq α] (f : α → β) (a : α) : upd f a (f a) = f := by
  funext x; unfold upd; split <;> simp_all

theorem upd_upd {α β : Type} [DecidableEq α] (f : α → β) (a : α) (b b' : β) : upd (upd f a b) a b' = upd f a b' := by
  funext x; unfold upd; split <;> simp_all

theorem At_plug (C : Ctx) (t : T) : At (plug C t) (pathOf C) t := by
  induction C with
  | nil => exact .here t
  | cons f C ih => exact .down (by simpa using ih)

theorem At.ctx {t p t'} (h : At t p t') : ∃ C, t = plug C t' ∧ pathOf C = p := by
  induction h with
  | here t => exact ⟨[], rfl, rfl⟩
  | @down a pfx big ch c r t _ ih =>
    obtain ⟨C, h1, h2⟩ := ih
    refine ⟨⟨a, pfx, big, ch, c⟩ :: C, ?_, by simp [pathOf, h2]⟩
    simp [plug, ← h1, upd_self]

theorem At.trans {t p t' q t''} (h : At t p t') (h' : At t' q t'') : At t (p ++ q) t'' := by
  induction h with
  | here t => exact h'
  | down _ ih => simpa using At.down (ih h')

theorem At.child {t p a pfx big ch} (h : At t p (.node a pfx big ch)) (c : UInt8) :
    At t (p ++ pfx ++ [c]) (ch c) := by
  simpa using h.trans (At.down (pfx := pfx) (big := big) (a := a) (ch := ch) (c := c) (At.here _))

theorem At.inv_nil {t t'} (h : At t [] t') : t' = t := by
  generalize hp : ([] : Key) = p at h
  cases h with
  | here => rfl
  | down _ => simp at hp

theorem At.inv_node {a pfx big ch p t'} (h : At (.node a pfx big ch) p t') :
    (p = [] ∧ t' = .node a pfx big ch) ∨ ∃ c r, p = pfx ++ c :: r ∧ At (ch c) r t' := by
  cases h with
  | here => exact .inl ⟨rfl, rfl⟩
  | down h => exact .inr ⟨_, _, rfl, h⟩

theorem At.inv_leaf {k v p t'} (h : At (.leaf k v) p t') : p = [] ∧ t' = .leaf k v := by
  cases h with
  | here => exact ⟨rfl, rfl⟩

theorem At.inv_empty {p t'} (h : At .empty p t') : p = [] ∧ t' = .empty := by
  cases h with
  | here => exact ⟨rfl, rfl⟩

theorem append_cons_inj {p : Key} {c d : UInt8} {r s : Key} (h : p ++ c :: r = p ++ d :: s) : c = d ∧ r = s := by
  simpa using h

theorem At.det {t p t1 t2} (h1 : At t p t1) (h2 : At t p t2) : t1 = t2 := by
  induction h1 with
  | here t => exact h2.inv_nil.symm
  | down _ ih =>
    rcases h2.inv_node with ⟨h, _⟩ | ⟨c, r, h, h'⟩
    · simp at h
    · obtain ⟨rfl, rfl⟩ := append_cons_inj h
      exact ih h'

/-- The context of a child of a node given by its context. -/
theorem plug_child (C : Ctx) (a pfx big ch c t) :
    plug (C ++ [⟨a, pfx, big, ch, c⟩]) t = plug C (.node a pfx big (upd ch c t)) := by
  simp [plug]

/-! ## Sums over bytes -/

theorem sumB_congr {f g : UInt8 → Nat} (h : ∀ c, f c = g c) : sumB f = sumB g := by
  rw [funext h]

theorem sum_map_upd {f : UInt8 → Nat} {c : UInt8} {v : Nat} (l : List UInt8) (hn : l.Nodup) (hc : c ∈ l) :
    (l.map (upd f c v)).sum + f c = (l.map f).sum + v := by
  induction l with
  | nil => simp at hc
  | cons b l ih =>
    rw [List.nodup_cons] at hn
    simp only [List.map_cons, List.sum_cons]
    by_cases hb : b = c
    · subst hb
      have : l.map (upd f b v) = l.map f := by
        apply List.map_congr_left
        intro x hx
        exact upd_of_ne _ _ (fun e => hn.1 (e ▸ hx))
      rw [this, upd_same]
      omega
    · rw [upd_of_ne _ _ hb]
      have := ih hn.2 (by simpa [Ne.symm hb] using hc)
      omega

theorem allBytes_nodup : allBytes.Nodup := allBytes_sorted.imp fun h => UInt8.ne_of_lt h

theorem sumB_upd (f : UInt8 → Nat) (c : UInt8) (v : Nat) : sumB (upd f c v) + f c = sumB f + v :=
  sum_map_upd _ allBytes_nodup (mem_allBytes c)

theorem le_sum_map {f : UInt8 → Nat} {c : UInt8} (l : List UInt8) (hc : c ∈ l) : f c ≤ (l.map f).sum := by
  induction l with
  | nil => simp at hc
  | cons b l ih =>
    simp only [List.map_cons, List.sum_cons]
    rcases List.mem_cons.1 hc with rfl | h
    · omega
    · have := ih h; omega

theorem le_sumB (f : UInt8 → Nat) (c : UInt8) : f c ≤ sumB f := le_sum_map _ (mem_allBytes c)

theorem add_le_sumB (f : UInt8 → Nat) {c d : UInt8} (h : c ≠ d) : f c + f d ≤ sumB f := by
  have h1 := sumB_upd f c 0
  have h2 := le_sumB (upd f c 0) d
  rw [upd_of_ne _ _ (Ne.symm h)] at h2
  omega

/-! ## Presence, counts and slots under a change of one child -/

theorem present_upd_of_eq {ch : UInt8 → T} {c : UInt8} {t : T} (h : t.isEmpty = (ch c).isEmpty) :
    present (upd ch c t) = present ch := by
  funext b; unfold present upd; split <;> simp_all

theorem cnt_upd {big : Bool} {ch : UInt8 → T} {c : UInt8} {t : T} (h : big = true ∨ t.isEmpty = (ch c).isEmpty) :
    cnt big (upd ch c t) = cnt big ch := by
  unfold cnt
  rcases h with h | h
  · simp [h]
  · rw [present_upd_of_eq h]

theorem idx_upd {big : Bool} {ch : UInt8 → T} {c : UInt8} {t : T} (h : big = true ∨ t.isEmpty = (ch c).isEmpty) :
    idx big (upd ch c t) = idx big ch := by
  funext d
  unfold idx
  rcases h with h | h
  · simp [h]
  · rw [present_upd_of_eq h]

theorem nodeSize_upd {pfx : List UInt8} {big : Bool} {ch : UInt8 → T} {c : UInt8} {t : T}
    (h : big = true ∨ t.isEmpty = (ch c).isEmpty) :
    nodeSize pfx big (upd ch c t) = nodeSize pfx big ch := by
  unfold nodeSize; rw [cnt_upd h]

theorem childSlot_upd {a : Nat} {pfx : List UInt8} {big : Bool} {ch : UInt8 → T} {c : UInt8} {t : T}
    (h : big = true ∨ t.isEmpty = (ch c).isEmpty) :
    childSlot a pfx big (upd ch c t) = childSlot a pfx big ch := by
  funext d; unfold childSlot; rw [idx_upd h]

theorem present_eq_true {ch : UInt8 → T} {c : UInt8} : present ch c = true ↔ (ch c).isEmpty = false := by
  simp [present]

theorem idx_lt {big : Bool} {ch : UInt8 → T} {c : UInt8} (h : big = true ∨ (ch c).isEmpty = false) :
    idx big ch c < cnt big ch := by
  unfold idx cnt
  split
  · exact c.toNat_lt
  · rename_i hb
    exact rankOf_lt (present_eq_true.2 (h.resolve_left hb))

theorem idx_inj {big : Bool} {ch : UInt8 → T} {c d : UInt8} (hc : big = true ∨ (ch c).isEmpty = false)
    (hd : big = true ∨ (ch d).isEmpty = false) (h : idx big ch c = idx big ch d) : c = d := by
  unfold idx at h
  split at h
  · exact UInt8.toNat_inj.1 h
  · rename_i hb
    exact rankOf_inj (present_eq_true.2 (hc.resolve_left hb)) (present_eq_true.2 (hd.resolve_left hb)) h

theorem childSlot_range {a : Nat} {pfx : List UInt8} {big : Bool} {ch : UInt8 → T} {c : UInt8}
    (h : big = true ∨ (ch c).isEmpty = false) :
    a + prefixSlots pfx.length ≤ childSlot a pfx big ch c ∧
      childSlot a pfx big ch c < a + nodeSize pfx big ch := by
  have := idx_lt h
  unfold childSlot nodeSize
  omega

theorem childSlot_inj {a : Nat} {pfx : List UInt8} {big : Bool} {ch : UInt8 → T} {c d : UInt8}
    (hc : big = true ∨ (ch c).isEmpty = false) (hd : big = true ∨ (ch d).isEmpty = false)
    (h : childSlot a pfx big ch c = childSlot a pfx big ch d) : c = d := by
  apply idx_inj hc hd
  unfold childSlot at h
  omega

/-! ## Memory frame properties -/

theorem NodeMem.congr {m m' : Mem} {a : Nat} {pfx : List UInt8} {big : Bool} {ch : UInt8 → T}
    (h : NodeMem m a pfx big ch) (he : ∀ x, a ≤ x → x < a + nodeSize pfx big ch → m' x = m x) :
    NodeMem m' a pfx big ch := by
  refine ⟨h.pre.congr ?_, ?_⟩
  · intro x h1 h2
    exact he x h1 (by unfold nodeSize; omega)
  · intro c hc
    have := childSlot_range (a := a) (pfx := pfx) hc
    rw [he _ (by omega) this.2]
    exact h.kid c hc

theorem cover_child_le {a : Nat} {pfx : List UInt8} {big : Bool} {ch : UInt8 → T} (c : UInt8) (x : Nat) :
    (ch c).cover x ≤ (T.node a pfx big ch).cover x := by
  have := le_sumB (fun c => (ch c).cover x) c
  simp only [T.cover]
  omega

theorem T.Repr.congr {m m' : Mem} {t : T} (h : t.Repr m) (he : ∀ x, 0 < t.cover x → m' x = m x) : t.Repr m' := by
  induction t with
  | empty => trivial
  | leaf k v => trivial
  | node a pfx big ch ih =>
    refine ⟨h.1.congr ?_, ?_⟩
    · intro x h1 h2
      apply he
      simp only [T.cover]
      rw [if_pos ⟨h1, h2⟩]
      omega
    · intro c
      exact ih c (h.2 c) fun x hx => he x (Nat.lt_of_lt_of_le hx (cover_child_le c x))

theorem Repr_plug_inner {m : Mem} {C : Ctx} {t : T} (h : (plug C t).Repr m) : t.Repr m := by
  induction C with
  | nil => exact h
  | cons f C ih =>
    apply ih
    have := h.2 f.c
    simpa using this

theorem At.repr {m : Mem} {t p t'} (h : At t p t') (hr : t.Repr m) : t'.Repr m := by
  obtain ⟨C, rfl, _⟩ := h.ctx
  exact Repr_plug_inner hr

theorem At.cover_le {t p t'} (h : At t p t') (x : Nat) : t'.cover x ≤ t.cover x := by
  induction h with
  | here t => exact Nat.le_refl _
  | down _ ih => exact Nat.le_trans ih (cover_child_le _ x)

theorem At.inBlocks {n : Nat} {t p t'} (h : At t p t') (hr : t.InBlocks n) : t'.InBlocks n := by
  induction h with
  | here t => exact hr
  | down _ ih => exact ih (hr.2 _)

theorem At.wf {P} {t p t'} (h : At t p t') : ∀ {q}, t.WF P q → t'.WF P (q ++ p) := by
  induction h with
  | here t => intro q hq; simpa using hq
  | @down a pfx big ch c r t _ ih =>
    intro q hq
    have := ih (hq.2.2 c)
    simpa using this

theorem At.has {t p t'} (h : At t p t') {k v} (hk : t'.Has k v) : t.Has k v := by
  induction h with
  | here t => exact hk
  | down _ ih => exact ⟨_, ih hk⟩

theorem At.cover_node {t p a pfx big ch} (h : At t p (.node a pfx big ch)) {x : Nat} (h1 : a ≤ x)
    (h2 : x < a + nodeSize pfx big ch) : 0 < t.cover x := by
  refine Nat.lt_of_lt_of_le ?_ (h.cover_le x)
  simp only [T.cover]
  rw [if_pos ⟨h1, h2⟩]
  omega

/-! ## Keys below a path -/

theorem T.WF.has {P} {t : T} : ∀ {p}, t.WF P p → ∀ {k v}, t.Has k v → p <+: k ∧ P k v := by
  induction t with
  | empty => intro p _ k v h; exact absurd h id
  | leaf k' v' => intro p h k v hk; obtain ⟨rfl, rfl⟩ := hk; exact h
  | node a pfx big ch ih =>
    intro p h k v hk
    obtain ⟨c, hc⟩ := hk
    obtain ⟨h1, h2⟩ := ih c (h.2.2 c) hc
    refine ⟨?_, h2⟩
    rw [List.append_assoc] at h1
    exact (List.prefix_append p _).trans h1

theorem prefix_snoc_inj {p k : Key} {c d : UInt8} (h1 : p ++ [c] <+: k) (h2 : p ++ [d] <+: k) : c = d := by
  obtain ⟨s, rfl⟩ := h1
  obtain ⟨u, hu⟩ := h2
  simp at hu
  exact hu.1.symm

theorem prefix_of_cons_eq {p q r s: Key} {c d : UInt8} (h1 : p ++ c :: r <+: q) (h2 : p ++ d :: s <+: q) : c = d := by
  apply prefix_snoc_inj (p := p) (k := q)
  · exact List.IsPrefix.trans ⟨r, by simp⟩ h1
  · exact List.IsPrefix.trans ⟨s, by simp⟩ h2

/-- A well-formed tree stores at most one value per key. -/
theorem T.WF.has_unique {P} {t : T} : ∀ {p}, t.WF P p → ∀ {k v v'}, t.Has k v → t.Has k v' → v = v' := by
  induction t with
  | empty => intro p _ k v v' h; exact absurd h id
  | leaf k' w => intro p h k v v' h1 h2; exact h1.2.symm.trans h2.2
  | node a pfx big ch ih =>
    intro p h k v v' h1 h2
    obtain ⟨c, hc⟩ := h1
    obtain ⟨d, hd⟩ := h2
    have e1 := ((h.2.2 c).has hc).1
    have e2 := ((h.2.2 d).has hd).1
    have : c = d := prefix_snoc_inj e1 e2
    subst this
    exact ih c (h.2.2 c) hc hd

/-! ## Changing the subtree in a hole -/

/-- The change keeps the shape of the node owning the hole. -/
def Compat (C : Ctx) (t0 t1 : T) : Prop :=
  ∀ f, C.getLast? = some f → f.big = true ∨ t1.isEmpty = t0.isEmpty

theorem plug_isEmpty {C : Ctx} (hC : C ≠ []) (t : T) : (plug C t).isEmpty = false := by
  cases C with
  | nil => exact absurd rfl hC
  | cons f C => rfl

theorem Compat.tail {f : Frame} {C : Ctx} {t0 t1 : T} (h : Compat (f :: C) t0 t1) : Compat C t0 t1 := by
  intro g hg
  cases C with
  | nil => simp at hg
  | cons f' C => exact h g (by simpa [List.getLast?_cons_cons] using hg)

theorem Compat.head {f : Frame} {C : Ctx} {t0 t1 : T} (h : Compat (f :: C) t0 t1) :
    f.big = true ∨ (plug C t1).isEmpty = (plug C t0).isEmpty := by
  cases C with
  | nil => exact h f (by simp)
  | cons f' C => right; rfl

theorem compat_upd {f : Frame} {C : Ctx} {t0 t1 : T} (h : Compat (f :: C) t0 t1) :
    f.big = true ∨ (plug C t1).isEmpty = ((upd f.ch f.c (plug C t0)) f.c).isEmpty := by
  rw [upd_same]; exact h.head

theorem plug_cons_eq (f : Frame) (C : Ctx) (t0 t1 : T) :
    plug (f :: C) t1 = .node f.addr f.pfx f.big (upd (upd f.ch f.c (plug C t0)) f.c (plug C t1)) := by
  simp [plug, upd_upd]

theorem cover_plug {C : Ctx} {t0 t1 : T} (hc : Compat C t0 t1) (x : Nat) :
    (plug C t1).cover x + t0.cover x = (plug C t0).cover x + t1.cover x := by
  induction C with
  | nil => simp [plug, Nat.add_comm]
  | cons f C ih =>
    have h1 := ih hc.tail
    rw [plug_cons_eq f C t0 t1]
    simp only [T.cover, plug]
    rw [nodeSize_upd (compat_upd hc)]
    have h2 := sumB_upd (fun c => (upd f.ch f.c (plug C t0) c).cover x) f.c ((plug C t1).cover x)
    have h3 : sumB (fun c => (upd (upd f.ch f.c (plug C t0)) f.c (plug C t1) c).cover x) =
        sumB (upd (fun c => (upd f.ch f.c (plug C t0) c).cover x) f.c ((plug C t1).cover x)) := by
      apply sumB_congr
      intro c
      by_cases h : c = f.c
      · subst h; simp
      · simp [upd_of_ne _ _ h]
    rw [h3]
    simp only [upd_same] at h2
    omega

theorem WF_plug {P} {C : Ctx} {t0 t1 : T} (hc : Compat C t0 t1) :
    ∀ {p}, (plug C t0).WF P p → t1.WF P (p ++ pathOf C) → (plug C t1).WF P p := by
  induction C with
  | nil => intro p _ h; simpa [pathOf, plug] using h
  | cons f C ih =>
    intro p h h1
    rw [plug_cons_eq f C t0 t1]
    refine ⟨h.1, ?_, ?_⟩
    · intro hb
      have e := compat_upd hc
      rw [hb] at e
      rw [present_upd_of_eq (e.resolve_left (by simp))]
      exact h.2.1 hb
    · intro c
      by_cases hcc : c = f.c
      · subst hcc
        rw [upd_same]
        apply ih hc.tail
        · have := h.2.2 f.c
          simpa using this
        · simpa [pathOf] using h1
      · rw [upd_of_ne _ _ hcc]
        exact h.2.2 c

theorem InBlocks_plug {n : Nat} {C : Ctx} {t0 t1 : T} (hc : Compat C t0 t1)
    (h : (plug C t0).InBlocks n) (h1 : t1.InBlocks n) : (plug C t1).InBlocks n := by
  induction C with
  | nil => exact h1
  | cons f C ih =>
    rw [plug_cons_eq f C t0 t1]
    refine ⟨?_, ?_⟩
    · rw [nodeSize_upd (compat_upd hc)]; exact h.1
    · intro c
      by_cases hcc : c = f.c
      · subst hcc
        rw [upd_same]
        apply ih hc.tail
        have := h.2 f.c
        simpa using this
      · rw [upd_of_ne _ _ hcc]
        exact h.2 c

theorem T.InBlocks.mono {n n' : Nat} (hn : n ≤ n') {t : T} (h : t.InBlocks n) : t.InBlocks n' := by
  induction t with
  | empty => trivial
  | leaf => trivial
  | node a pfx big ch ih =>
    exact ⟨⟨h.1.1, Nat.lt_of_lt_of_le h.1.2.1 hn, h.1.2.2⟩, fun c => ih c (h.2 c)⟩

/-- The pairs outside the hole. -/
def Outside : Ctx → Key → Word → Prop
  | [], _, _ => False
  | f :: C, k, v => (∃ c, c ≠ f.c ∧ (f.ch c).Has k v) ∨ Outside C k v

theorem has_plug (C : Ctx) (t : T) (k : Key) (v : Word) : (plug C t).Has k v ↔ Outside C k v ∨ t.Has k v := by
  induction C with
  | nil => simp [plug, Outside]
  | cons f C ih =>
    simp only [plug, T.Has, Outside]
    constructor
    · rintro ⟨c, hc⟩
      by_cases h : c = f.c
      · subst h
        rw [upd_same, ih] at hc
        rcases hc with hc | hc
        · exact .inl (.inr hc)
        · exact .inr hc
      · rw [upd_of_ne _ _ h] at hc
        exact .inl (.inl ⟨c, h, hc⟩)
    · rintro ((⟨c, h, hc⟩ | h) | h)
      · exact ⟨c, by rw [upd_of_ne _ _ h]; exact hc⟩
      · exact ⟨f.c, by rw [upd_same, ih]; exact .inl h⟩
      · exact ⟨f.c, by rw [upd_same, ih]; exact .inr h⟩

theorem outside_not_prefix {P} {C : Ctx} {t : T} : ∀ {p}, (plug C t).WF P p → ∀ {k v}, Outside C k v →
    ¬ p ++ pathOf C <+: k := by
  induction C with
  | nil => intro p _ k v h; exact absurd h id
  | cons f C ih =>
    intro p hwf k v h
    have hch := hwf.2.2
    rcases h with ⟨c, hc, hk⟩ | h
    · intro hp
      have h1 := hch c
      rw [upd_of_ne _ _ hc] at h1
      have h2 := (h1.has hk).1
      apply hc
      apply prefix_of_cons_eq (p := p ++ f.pfx) (q := k) (r := []) (s := pathOf C)
      · exact h2
      · simpa [pathOf] using hp
    · have h1 := hch f.c
      rw [upd_same] at h1
      have := ih h1 h
      simpa [pathOf] using this

end Radix
