import Verif.Sys.Exec
/-!
# Which memory is in use
-/
set_option autoImplicit false
namespace Radix
open T

/-- The slots of the node that `w` refers to: prefix and children. -/
def Occupies (st : St) (w : Word) (p : Nat) : Prop :=
  ∃ d plen slots data, st.nodeData (nodeAddr w) = .ok d ∧ skipPrefix st.mem d (nodePlen w) = .ok (plen, slots, data) ∧
    nodeAddr w ≤ p ∧ p < data.base + nodeCount w

/-- `w` refers to a node that can be reached from the root. -/
def LiveNode (st : St) (w : Word) : Prop := Reach st w ∧ w ≠ 0 ∧ isLeaf w = false

theorem View.occupies_iff {P} {st : St} {raw q n pfx big ch} (h : View P st.baNext st.mem raw q n pfx big ch) {p : Nat} :
    Occupies st raw p ↔ n ≤ p ∧ p < n + nodeSize pfx big ch := by
  unfold Occupies
  rw [h.addr, nodeData_view h, h.count]
  constructor
  · rintro ⟨d, plen, slots, data, h1, h2, h3, h4⟩
    obtain rfl := Except.ok.inj h1
    rw [h.skip] at h2
    obtain ⟨_, _, rfl⟩ : pfx.length = plen ∧ _ ∧ _ = data := by
      have := Except.ok.inj h2
      simpa using this
    refine ⟨h3, ?_⟩
    unfold nodeSize
    simp only at h4
    omega
  · rintro ⟨h1, h2⟩
    refine ⟨_, _, _, _, rfl, h.skip, h1, ?_⟩
    unfold nodeSize at h2
    simp only
    omega

theorem LiveNode.tree {P st t N w} (hc : CoreN P st t N) (h : LiveNode st w) :
    ∃ q n pfx big ch b, At t q (.node n pfx big ch) ∧ w = wordOf b (.node n pfx big ch) ∧
      ∀ p, Occupies st w p ↔ n ≤ p ∧ p < n + nodeSize pfx big ch := by
  obtain ⟨q, n, pfx, big, ch, b, hat, rfl⟩ := (h.1.refOf hc).node hc h.2.1 h.2.2
  exact ⟨q, n, pfx, big, ch, b, hat, rfl, fun p => (hc.view hat).occupies_iff⟩

theorem T.cover_own {n pfx big ch x} (h1 : n ≤ x) (h2 : x < n + nodeSize pfx big ch) : 0 < (T.node n pfx big ch).cover x := by
  simp only [T.cover]
  rw [if_pos ⟨h1, h2⟩]
  omega

theorem T.at_unique {t : T} {x : Nat} (hx : t.cover x ≤ 1) : ∀ {q1 q2 n1 pfx1 big1 ch1 n2 pfx2 big2 ch2},
    At t q1 (.node n1 pfx1 big1 ch1) → At t q2 (.node n2 pfx2 big2 ch2) →
    n1 ≤ x → x < n1 + nodeSize pfx1 big1 ch1 → n2 ≤ x → x < n2 + nodeSize pfx2 big2 ch2 → q1 = q2 := by
  induction t with
  | empty => intro _ _ _ _ _ _ _ _ _ _ h; cases h.inv_empty.2
  | leaf => intro _ _ _ _ _ _ _ _ _ _ h; cases h.inv_leaf.2
  | node n pfx big ch ih =>
    intro q1 q2 n1 pfx1 big1 ch1 n2 pfx2 big2 ch2 h1 h2 a1 a2 b1 b2
    simp only [T.cover] at hx
    have o1 := T.cover_own a1 a2
    have o2 := T.cover_own b1 b2
    rcases h1.inv_node with ⟨rfl, e1⟩ | ⟨c, r, rfl, g1⟩ <;> rcases h2.inv_node with ⟨rfl, e2⟩ | ⟨d, r', rfl, g2⟩
    · rfl
    · exfalso
      cases e1
      rw [if_pos ⟨a1, a2⟩] at hx
      have h3 := g2.cover_le x
      have h4 : (ch d).cover x ≤ sumB fun c => (ch c).cover x := le_sumB (fun c => (ch c).cover x) d
      omega
    · exfalso
      cases e2
      rw [if_pos ⟨b1, b2⟩] at hx
      have h3 := g1.cover_le x
      have h4 : (ch c).cover x ≤ sumB fun c => (ch c).cover x := le_sumB (fun c => (ch c).cover x) c
      omega
    · by_cases hcd : c = d
      · subst hcd
        have h4 : (ch c).cover x ≤ sumB fun c => (ch c).cover x := le_sumB (fun c => (ch c).cover x) c
        rw [ih c (by omega) g1 g2 a1 a2 b1 b2]
      · exfalso
        have h3 := g1.cover_le x
        have h4 := g2.cover_le x
        have h5 : (ch c).cover x + (ch d).cover x ≤ sumB fun c => (ch c).cover x := add_le_sumB (fun c => (ch c).cover x) hcd
        omega

/-- Two references to nodes with a common slot are the same reference, at the same place. -/
theorem CoreN.live_unique {P st t N} (hc : CoreN P st t N) {q1 q2 n1 pfx1 big1 ch1 n2 pfx2 big2 ch2} {x : Nat}
    (h1 : At t q1 (.node n1 pfx1 big1 ch1)) (h2 : At t q2 (.node n2 pfx2 big2 ch2))
    (a1 : n1 ≤ x) (a2 : x < n1 + nodeSize pfx1 big1 ch1) (b1 : n2 ≤ x) (b2 : x < n2 + nodeSize pfx2 big2 ch2) :
    q1 = q2 ∧ T.node n1 pfx1 big1 ch1 = .node n2 pfx2 big2 ch2 := by
  have hx := hc.sep x
  have := T.at_unique (by omega) h1 h2 a1 a2 b1 b2
  subst this
  exact ⟨rfl, h1.det h2⟩

/-- The slot through which a reference is reached determines it, and is determined by it. -/
theorem wordOf_key {P st t N b b' n pfx big ch q} (hc : CoreN P st t N) (hat : At t q (.node n pfx big ch)) :
    nodeAddr (wordOf b (.node n pfx big ch)) = nodeAddr (wordOf b' (.node n pfx big ch)) := by
  rw [(hc.view (b := b) hat).addr, (hc.view (b := b') hat).addr]

/-- The branch byte in a reference is the last byte of its path. -/
theorem RefOf.node' {P st t N w} (hc : CoreN P st t N) (h : RefOf t w) (h0 : w ≠ 0) (hl : isLeaf w = false) :
    ∃ q n pfx big ch, At t q (.node n pfx big ch) ∧ w = wordOf (q.getLast?.getD 0) (.node n pfx big ch) := by
  rcases h with rfl | ⟨q, n, pfx, big, ch, c, hat, rfl⟩
  · cases t with
    | empty => exact absurd rfl h0
    | leaf k v => simp [rootWord] at hl
    | node n pfx big ch => exact ⟨[], n, pfx, big, ch, .here _, rfl⟩
  · have := hat.child c
    cases hck : ch c with
    | empty => rw [hck] at h0; exact absurd rfl h0
    | leaf k v => rw [hck] at hl; simp [wordOf] at hl
    | node n' pfx' big' ch' => exact ⟨_, n', pfx', big', ch', hck ▸ this, by simp⟩

theorem LiveNode.tree' {P st t N w} (hc : CoreN P st t N) (h : LiveNode st w) :
    ∃ q n pfx big ch, At t q (.node n pfx big ch) ∧ w = wordOf (q.getLast?.getD 0) (.node n pfx big ch) ∧
      ∀ p, Occupies st w p ↔ n ≤ p ∧ p < n + nodeSize pfx big ch := by
  obtain ⟨q, n, pfx, big, ch, hat, rfl⟩ := (h.1.refOf hc).node' hc h.2.1 h.2.2
  exact ⟨q, n, pfx, big, ch, hat, rfl, fun p => (hc.view hat).occupies_iff⟩

/-- A child determines its parent. -/
theorem At.parent {t : T} : ∀ {q1 q2 n1 pfx1 big1 ch1 n2 pfx2 big2 ch2} {c1 c2 : UInt8}, At t q1 (.node n1 pfx1 big1 ch1) →
    At t q2 (.node n2 pfx2 big2 ch2) → q1 ++ pfx1 ++ [c1] = q2 ++ pfx2 ++ [c2] → q1 = q2 ∧ c1 = c2 := by
  induction t with
  | empty => intro _ _ _ _ _ _ _ _ _ _ _ _ h; cases h.inv_empty.2
  | leaf => intro _ _ _ _ _ _ _ _ _ _ _ _ h; cases h.inv_leaf.2
  | node n pfx big ch ih =>
    intro q1 q2 n1 pfx1 big1 ch1 n2 pfx2 big2 ch2 c1 c2 h1 h2 he
    rcases h1.inv_node with ⟨rfl, e1⟩ | ⟨c, r, rfl, g1⟩ <;> rcases h2.inv_node with ⟨rfl, e2⟩ | ⟨d, r', rfl, g2⟩
    · cases e1; cases e2
      simpa using he
    · cases e1
      have := congrArg List.length he
      simp at this
    · cases e2
      have := congrArg List.length he
      simp at this
    · simp only [List.append_assoc, List.cons_append, List.append_cancel_left_eq, List.cons.injEq] at he
      obtain ⟨rfl, he⟩ := he
      have := ih c g1 g2 (by simpa using he)
      exact ⟨by rw [this.1], this.2⟩

/-- Allocate several nodes, one after the other. -/
def newNodes (st : St) (a : Nat) : List Nat → Res (List (Nat × Nat) × St)
  | [] => .ok ([], st)
  | size :: l => do
    let (n, st) ← st.newNode a size
    let (r, st) ← newNodes st a l
    return ((n, size) :: r, st)

/-- How often `x` is in the new nodes. -/
def segs (l : List (Nat × Nat)) (x : Nat) : Nat := (l.map fun p => seg p.1 p.2 x).sum

theorem newNodes_eff {a : Nat} : ∀ (sizes : List Nat) {st st' : St} {r : List (Nat × Nat)} {N : Nat → Nat}, a < st.nalloc →
    (∀ z ∈ sizes, 2 ≤ z ∧ z + 1 < blockSlots) → (∀ b, b < st.nalloc → AllocOK st.baNext (st.allocs b)) → N 0 = 0 →
    newNodes st a sizes = .ok (r, st') → AllocEff a st st' N (fun x => N x + segs r x) ∧ ∀ p ∈ r, 0 < p.1
  | [], st, st', r, N, _, _, hok, h0, h => by
    cases h
    refine ⟨?_, fun p hp => by cases hp⟩
    simpa [segs] using AllocEff.refl hok h0
  | size :: l, st, st', r, N, ha, hsz, hok, h0, h => by
    simp only [newNodes] at h
    rcases newNode_spec (slots := size) ha (hsz size (by simp)).1 (hsz size (by simp)).2 hok with e | ⟨n, st1, e, hn⟩
    · rw [e] at h; cases h
    · rw [e] at h
      simp only [bind, Except.bind] at h
      have e1 := hn.eff h0
      cases hr : newNodes st1 a l with
      | error e => rw [hr] at h; cases h
      | ok q =>
        obtain ⟨r1, st2⟩ := q
        rw [hr] at h
        cases h
        have h2 := newNodes_eff l (N := fun x => N x + seg n size x) (by rw [e1.nalloc]; exact ha) (fun z hz => hsz z (by simp [hz])) (fun b hb => e1.ok b (by rw [← e1.nalloc]; exact hb)) e1.n0 hr
        refine ⟨?_, ?_⟩
        · have := e1.trans h2.1
          simpa [segs, Nat.add_assoc] using this
        · intro p hp
          rcases List.mem_cons.1 hp with rfl | hp
          · exact hn.pos
          · exact h2.2 p hp

/-! ## Reachability in concrete states -/

/-- Slot `i` of the node that `w` refers to. -/
def kidSlot (st : St) (w : Word) (i : Nat) : Option Nat :=
  match st.nodeData (nodeAddr w) with
  | .ok d =>
    match skipPrefix st.mem d (nodePlen w) with
    | .ok (_, _, data) => if i < nodeCount w then some (data.base + i) else none
    | .error _ => none
  | .error _ => none

theorem kidSlot_sound {st : St} {w : Word} {i p : Nat} (h : kidSlot st w i = some p) : SlotOf st w p := by
  unfold kidSlot at h
  split at h
  · rename_i d hd
    split at h
    · rename_i plen slots data hs
      split at h
      · rename_i hi
        cases h
        exact ⟨d, plen, slots, data, i, hd, hs, hi, rfl⟩
      · cases h
    · cases h
  · cases h

/-- The slot reached by following child indices from a reference. -/
def follow (st : St) : Word → List Nat → Option Word
  | w, [] => if w ≠ 0 ∧ isLeaf w = false then some w else none
  | w, i :: l =>
    if w ≠ 0 ∧ isLeaf w = false then
      match kidSlot st w i with
      | some p => follow st (st.mem p) l
      | none => none
    else none

theorem follow_sound {st : St} : ∀ {l : List Nat} {w w' : Word}, Reach st w → follow st w l = some w' → LiveNode st w'
  | [], w, w', hr, h => by
    simp only [follow] at h
    split at h
    · rename_i h0
      cases h
      exact ⟨hr, h0.1, h0.2⟩
    · cases h
  | i :: l, w, w', hr, h => by
    simp only [follow] at h
    split at h
    · rename_i h0
      split at h
      · rename_i p hp
        exact follow_sound (.child hr h0.1 h0.2 (kidSlot_sound hp)) h
      · cases h
    · cases h

/-- First slot after the node that `w` refers to. -/
def nodeEnd (st : St) (w : Word) : Option Nat :=
  match st.nodeData (nodeAddr w) with
  | .ok d =>
    match skipPrefix st.mem d (nodePlen w) with
    | .ok (_, _, data) => some (data.base + nodeCount w)
    | .error _ => none
  | .error _ => none

theorem nodeEnd_sound {st : St} {w : Word} {p e : Nat} (h : nodeEnd st w = some e) (h1 : nodeAddr w ≤ p) (h2 : p < e) : Occupies st w p := by
  unfold nodeEnd at h
  split at h
  · rename_i d hd
    split at h
    · rename_i plen slots data hs
      cases h
      exact ⟨d, plen, slots, data, hd, hs, h1, h2⟩
    · cases h
  · cases h

end Radix
