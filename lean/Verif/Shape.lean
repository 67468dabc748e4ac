import Verif.CountProof
/-!
# The shape of a tree without finalized deletes
-/
set_option autoImplicit false
namespace Radix
open T

theorem nodup_two {α} [DecidableEq α] {l : List α} (hn : l.Nodup) (h : 2 ≤ l.length) (d : α) : ∃ c ∈ l, c ≠ d := by
  match l, hn, h with
  | a :: b :: l, hn, _ =>
    by_cases e : a = d
    · refine ⟨b, by simp, fun e' => ?_⟩
      rw [e, e'] at hn
      simp at hn
    · exact ⟨a, by simp, e⟩

/-- A node of a dense tree has another child than `d`. -/
theorem T.Dense.other_kid {P q n pfx big ch} (hd : (T.node n pfx big ch).Dense) (hwf : (T.node n pfx big ch).WF P q) (d : UInt8) :
    ∃ c, c ≠ d ∧ (ch c).isEmpty = false := by
  have h2 : 2 ≤ (kidsOf (present ch)).length := by
    cases hb : big with
    | true => have := hd.1 hb; unfold cntOf at this; omega
    | false => exact (hwf.2.1 hb).1
  obtain ⟨c, h1, h2⟩ := nodup_two (kidsOf_nodup _) h2 d
  exact ⟨c, h2, present_eq_true.1 (mem_kidsOf.1 h1)⟩

theorem branch_ne {p k : Key} {c d : UInt8} (hc : p ++ [c] <+: k) (hd : p ++ [d] <+: k) : c = d := by
  obtain ⟨r, rfl⟩ := hc
  obtain ⟨s, e⟩ := hd
  have : c = d ∧ r = s := by simpa using e.symm
  exact this.1

/-- A key of a dense tree that has another branch at `p` than the byte `d`. -/
theorem T.Dense.other_key {P q n pfx big ch} (hd : (T.node n pfx big ch).Dense) (hwf : (T.node n pfx big ch).WF P q) (d : UInt8) :
    ∃ k v c, c ≠ d ∧ (ch c).Has k v ∧ q ++ pfx ++ [c] <+: k := by
  obtain ⟨c, hc, he⟩ := hd.other_kid hwf d
  obtain ⟨k, v, hk⟩ := ((hd.2 c).full (hwf.2.2 c)).has he
  exact ⟨k, v, c, hc, hk, ((hwf.2.2 c).has hk).1⟩

/-- Every key below a node passes one of its children. -/
theorem T.WF.has_node {P q n pfx big ch k v} (hwf : (T.node n pfx big ch).WF P q) (h : (T.node n pfx big ch).Has k v) :
    ∃ c, (ch c).Has k v ∧ q ++ pfx ++ [c] <+: k := by
  obtain ⟨c, hc⟩ := h
  exact ⟨c, hc, ((hwf.2.2 c).has hc).1⟩

/-- The last key shares with no other key more than what all keys share. -/
def LastApart (l : List (Key × Word)) : Prop :=
  ∀ x, l.getLast? = some x → ∀ y ∈ l, y ≠ x → ∀ q : Key, q <+: x.1 → q <+: y.1 → ∀ z ∈ l, q <+: z.1

/-- Then the last child of the root is a leaf. -/
theorem T.Dense.lastLeaf {P q n pfx big ch} (hd : (T.node n pfx big ch).Dense) (hwf : (T.node n pfx big ch).WF P q)
    (hl : LastApart (T.node n pfx big ch).leaves) : (T.node n pfx big ch).LastLeaf := by
  have hfull := hd.full hwf
  obtain ⟨⟨k, v⟩, hx⟩ := hfull.last rfl
  have hlast := T.last_spec hx
  simp only [T.last] at hx
  split at hx
  · cases hx
  rename_i d hfd
  obtain ⟨hne, as, bs, e, has⟩ := List.find?_eq_some_iff_append.1 hfd
  have hde : (ch d).isEmpty = false := by simpa using hne
  have hmem : (ch d).Has k v := T.mem_leaves.1 (List.mem_of_getLast? (T.last_spec hx))
  refine ⟨d, ?_, ?_⟩
  · cases hcd : ch d with
    | empty => rw [hcd] at hde; cases hde
    | leaf => rfl
    | node n2 pfx2 big2 ch2 =>
      exfalso
      have hwf2 := hwf.2.2 d
      have hd2 := hd.2 d
      rw [hcd] at hwf2 hd2 hmem
      obtain ⟨c2, hc2, hp2⟩ := hwf2.has_node hmem
      obtain ⟨k3, v3, c3, hc3, hk3, hp3⟩ := hd2.other_key hwf2 c2
      have hk3' : (ch d).Has k3 v3 := by rw [hcd]; exact ⟨c3, hk3⟩
      have hneq : ((k3, v3) : Key × Word) ≠ (k, v) := by
        intro e
        have e1 : k3 = k := (Prod.mk.inj e).1
        rw [e1] at hp3
        exact hc3 (branch_ne hp3 hp2)
      have h3 : (k3, v3) ∈ (T.node n pfx big ch).leaves := T.mem_leaves.2 ⟨d, hk3'⟩
      obtain ⟨k4, v4, c4, hc4, hk4, hp4⟩ := hd.other_key hwf d
      have h4 : (k4, v4) ∈ (T.node n pfx big ch).leaves := T.mem_leaves.2 ⟨c4, hk4⟩
      have := hl _ hlast _ h3 hneq (q ++ pfx ++ [d]) ((hwf.2.2 d).has (by rw [hcd]; exact hmem)).1 ((hwf.2.2 d).has hk3').1 _ h4
      exact hc4 (branch_ne hp4 this)
  · intro x hlt
    have hxm : x ∈ allBytes.reverse := by simp [mem_allBytes]
    have hsort : allBytes.reverse.Pairwise (fun a b => b < a) := List.pairwise_reverse.2 allBytes_sorted
    rw [e] at hxm hsort
    rcases List.mem_append.1 hxm with h | h
    · simpa using has x h
    · rcases List.mem_cons.1 h with h | h
      · rw [h] at hlt; exact absurd hlt (UInt8.lt_irrefl _)
      · have := (List.pairwise_cons.1 (List.pairwise_append.1 hsort).2.1).1 x h
        exact absurd (UInt8.lt_trans hlt this) (UInt8.lt_irrefl _)

/-! ## Number of nodes -/

theorem leaves_length_sum (n : Nat) (pfx : List UInt8) (big : Bool) (ch : UInt8 → T) :
    (T.node n pfx big ch).leaves.length = sumB fun c => (ch c).leaves.length := by
  simp only [T.leaves, List.length_flatMap]
  rfl

theorem sum_kids_le (f g : UInt8 → Nat) (p : UInt8 → Bool) : ∀ l : List UInt8, (∀ c ∈ l, f c + (if p c then 1 else 0) ≤ g c) →
    (l.map f).sum + (l.filter p).length ≤ (l.map g).sum
  | [], _ => by simp
  | c :: l, h => by
    have h1 := h c (by simp)
    have h2 := sum_kids_le f g p l fun d hd => h d (by simp [hd])
    simp only [List.map_cons, List.sum_cons, List.filter_cons]
    split at h1
    · rename_i hp; rw [if_pos hp]; simp only [List.length_cons]; omega
    · rename_i hp; rw [if_neg hp]; omega

/-- A dense tree has fewer nodes than leaves. -/
theorem T.Dense.nodes_lt {P} {t : T} : ∀ {q}, t.Dense → t.WF P q → t.isEmpty = false → t.nodes < t.leaves.length := by
  induction t with
  | empty => intro _ _ _ h; cases h
  | leaf => intro _ _ _ _; simp [T.nodes, T.leaves]
  | node n pfx big ch ih =>
    intro q hd hwf _
    rw [leaves_length_sum]
    have h2 : 2 ≤ cntOf (present ch) := by
      cases hb : big with
      | true => have := hd.1 hb; omega
      | false => exact (hwf.2.1 hb).1
    have h3 := sum_kids_le (fun c => (ch c).nodes) (fun c => (ch c).leaves.length) (present ch) allBytes (by
      intro c _
      cases hp : present ch c with
      | true => have := ih c (hd.2 c) (hwf.2.2 c) (present_eq_true.1 hp); simp only [if_true]; omega
      | false =>
        have he : (ch c).isEmpty = true := by simpa [present] using hp
        rw [T.isEmpty_eq_true.1 he]; simp [T.nodes])
    have h4 : (T.node n pfx big ch).nodes = 1 + (allBytes.map fun c => (ch c).nodes).sum := rfl
    have h5 : (sumB fun c => (ch c).leaves.length) = (allBytes.map fun c => (ch c).leaves.length).sum := rfl
    have h6 : (allBytes.filter (present ch)).length = cntOf (present ch) := rfl
    rw [h4, h5]
    omega

/-! ## The shape is determined by the keys -/

/-- The tree without addresses and values. -/
def T.erase : T → T
  | .empty => .empty
  | .leaf k _ => .leaf k 0
  | .node _ pfx big ch => .node 0 pfx big fun c => (ch c).erase

theorem T.isEmpty_erase (t : T) : t.erase.isEmpty = t.isEmpty := by cases t <;> rfl
theorem T.isNode_erase (t : T) : t.erase.isNode = t.isNode := by cases t <;> rfl

theorem present_erase (ch : UInt8 → T) : present (fun c => (ch c).erase) = present ch := by
  funext c; simp [present, T.isEmpty_erase]

theorem cnt_erase (big : Bool) (ch : UInt8 → T) : cnt big (fun c => (ch c).erase) = cnt big ch := by
  unfold cnt; rw [present_erase]

theorem prefix_comparable {a b k : Key} (h1 : a <+: k) (h2 : b <+: k) : a <+: b ∨ b <+: a := List.prefix_or_prefix_of_prefix h1 h2

/-- One direction of the uniqueness of prefixes. -/
theorem T.Dense.pfx_prefix {P P' q n pfx big ch n' pfx' big' ch'} (hd : (T.node n pfx big ch).Dense) (hwf : (T.node n pfx big ch).WF P q)
    (hwf' : (T.node n' pfx' big' ch').WF P' q)
    (hk : ∀ k, (∃ v, (T.node n pfx big ch).Has k v) → ∃ v, (T.node n' pfx' big' ch').Has k v) : pfx' <+: pfx := by
  -- all keys of the first tree have the prefix of the second
  have hall : ∀ k v, (T.node n pfx big ch).Has k v → q ++ pfx' <+: k := by
    intro k v h
    obtain ⟨v', h'⟩ := hk k ⟨v, h⟩
    obtain ⟨c, _, hp⟩ := hwf'.has_node h'
    exact (List.prefix_append _ _).trans hp
  obtain ⟨k, v, c, _, hkc, hp⟩ := hd.other_key hwf 0
  have h1 : q ++ pfx' <+: k := hall k v ⟨c, hkc⟩
  rcases prefix_comparable h1 ((List.prefix_append (q ++ pfx) [c]).trans hp) with h | h
  · exact (List.prefix_append_right_inj q).1 h
  · have h' : pfx <+: pfx' := (List.prefix_append_right_inj q).1 h
    obtain ⟨r, hr⟩ := h'
    cases r with
    | nil => rw [← hr]; simp
    | cons x r =>
      exfalso
      obtain ⟨k2, v2, c2, hne, hk2, hp2⟩ := hd.other_key hwf x
      have h2 := hall k2 v2 ⟨c2, hk2⟩
      have h3 : q ++ pfx ++ [x] <+: k2 := by
        refine List.IsPrefix.trans ?_ h2
        rw [← hr]
        exact ⟨r, by simp⟩
      exact hne (branch_ne hp2 h3)

theorem T.Dense.erase_eq {P P'} {t : T} : ∀ {t' : T} {q}, t.Dense → t.WF P q → t'.Dense → t'.WF P' q →
    (∀ k, (∃ v, t.Has k v) ↔ ∃ v, t'.Has k v) → t.erase = t'.erase := by
  induction t with
  | empty =>
    intro t' q _ _ hd' hwf' hk
    cases he : t'.isEmpty with
    | true => rw [T.isEmpty_eq_true.1 he]
    | false =>
      obtain ⟨k, v, h⟩ := (hd'.full hwf').has he
      obtain ⟨v', h'⟩ := (hk k).2 ⟨v, h⟩
      cases h'
  | leaf lk lv =>
    intro t' q _ _ hd' hwf' hk
    obtain ⟨v', h'⟩ := (hk lk).1 ⟨lv, rfl, rfl⟩
    cases t' with
    | empty => cases h'
    | leaf lk' lv' => obtain ⟨rfl, _⟩ := h'; rfl
    | node n' pfx' big' ch' =>
      exfalso
      obtain ⟨c, hc, hp⟩ := hwf'.has_node h'
      obtain ⟨k2, v2, c2, hne, hk2, hp2⟩ := hd'.other_key hwf' c
      obtain ⟨v3, h3⟩ := (hk k2).2 ⟨v2, c2, hk2⟩
      obtain ⟨rfl, _⟩ := h3
      exact hne (branch_ne hp2 hp)
  | node n pfx big ch ih =>
    intro t' q hd hwf hd' hwf' hk
    cases t' with
    | empty =>
      exfalso
      obtain ⟨k, v, h⟩ := (hd.full hwf).has rfl
      obtain ⟨v', h'⟩ := (hk k).1 ⟨v, h⟩
      cases h'
    | leaf lk lv =>
      exfalso
      obtain ⟨v', h'⟩ := (hk lk).2 ⟨lv, rfl, rfl⟩
      obtain ⟨c, hc, hp⟩ := hwf.has_node h'
      obtain ⟨k2, v2, c2, hne, hk2, hp2⟩ := hd.other_key hwf c
      obtain ⟨v3, h3⟩ := (hk k2).1 ⟨v2, c2, hk2⟩
      obtain ⟨rfl, _⟩ := h3
      exact hne (branch_ne hp2 hp)
    | node n' pfx' big' ch' =>
      have hpfx : pfx = pfx' := by
        have h1 := hd.pfx_prefix hwf hwf' fun k => (hk k).1
        have h2 := hd'.pfx_prefix hwf' hwf fun k => (hk k).2
        exact (h2.eq_of_length (Nat.le_antisymm h2.length_le h1.length_le))
      subst hpfx
      have hch : ∀ c, (ch c).erase = (ch' c).erase := by
        intro c
        refine ih c (hd.2 c) (hwf.2.2 c) (hd'.2 c) (hwf'.2.2 c) fun k => ?_
        constructor
        · rintro ⟨v, h⟩
          obtain ⟨v', h'⟩ := (hk k).1 ⟨v, c, h⟩
          obtain ⟨c', hc', hp'⟩ := hwf'.has_node h'
          rw [branch_ne ((hwf.2.2 c).has h).1 hp']
          exact ⟨v', hc'⟩
        · rintro ⟨v, h⟩
          obtain ⟨v', h'⟩ := (hk k).2 ⟨v, c, h⟩
          obtain ⟨c', hc', hp'⟩ := hwf.has_node h'
          rw [branch_ne ((hwf'.2.2 c).has h).1 hp']
          exact ⟨v', hc'⟩
      have hfun : (fun c => (ch c).erase) = fun c => (ch' c).erase := funext hch
      have hpres : present ch = present ch' := by rw [← present_erase ch, ← present_erase ch', hfun]
      have hbig : big = big' := by
        have e1 := hd.1
        have e2 := hd'.1
        have e3 := hwf.2.1
        have e4 := hwf'.2.1
        rw [hpres] at e1 e3
        cases big <;> cases big'
        · rfl
        · have := e2 rfl; have := e3 rfl; omega
        · have := e1 rfl; have := e4 rfl; omega
        · rfl
      subst hbig
      show T.node 0 pfx big _ = T.node 0 pfx big _
      rw [hfun]

theorem T.nodes_erase (t : T) : t.erase.nodes = t.nodes := by
  induction t with
  | empty => rfl
  | leaf => rfl
  | node n pfx big ch ih => simp only [T.erase, T.nodes, ih]

theorem T.leaves_erase (t : T) : t.erase.leaves.map (·.1) = t.leaves.map (·.1) := by
  induction t with
  | empty => rfl
  | leaf => rfl
  | node n pfx big ch ih => simp only [T.erase, T.leaves, List.map_flatMap, ih]

theorem skipEmpty_erase (ch : UInt8 → T) (cs : List UInt8) : skipEmpty (fun c => (ch c).erase) cs = skipEmpty ch cs := by
  unfold skipEmpty
  simp only [T.isEmpty_erase]

theorem again_erase (ch : UInt8 → T) : ∀ cs, again (fun c => (ch c).erase) cs = again ch cs
  | [] => rfl
  | c :: cs => by simp only [again, skipEmpty_erase, T.isNode_erase, again_erase ch cs]

theorem T.stat_erase (w : Nat → Nat → Nat) (t : T) : t.erase.stat w = t.stat w := by
  induction t with
  | empty => rfl
  | leaf => rfl
  | node n pfx big ch ih => simp only [T.erase, T.stat, ih, again_erase, cnt_erase]

theorem T.seek_erase (sp : Key) (t : T) : ∀ (b : UInt8) (d : Nat), (t.erase.seek sp b d).2 = (t.seek sp b d).2.erase := by
  induction t with
  | empty => intro _ _; rfl
  | leaf => intro _ _; rfl
  | node n pfx big ch ih =>
    intro b d
    simp only [T.erase, T.seek]
    split
    · rfl
    · split
      · rfl
      · rfl
      · split
        · rfl
        · exact ih _ _ _

theorem T.seekRoot_erase (sp : Key) (t : T) : (t.erase.seekRoot sp).2 = (t.seekRoot sp).2.erase := by
  cases t with
  | empty => exact T.seek_erase sp .empty 0 0
  | node n pfx big ch => exact T.seek_erase sp (.node n pfx big ch) 0 0
  | leaf k v =>
    simp only [T.erase, T.seekRoot]
    split <;> rfl

end Radix
