import Verif.Tree
/-!
# Replacing one child: effect on memory, and what other positions keep
-/
namespace Radix
open T

theorem wordOf_plug {C : Ctx} {b : UInt8} {a : Nat} {pfx : List UInt8} {big : Bool} {ch : UInt8 → T} {c : UInt8}
    {t1 : T} (hc : big = true ∨ t1.isEmpty = (ch c).isEmpty) :
    wordOf b (plug C (.node a pfx big (upd ch c t1))) = wordOf b (plug C (.node a pfx big ch)) := by
  induction C generalizing b with
  | nil => simp [plug, wordOf, cnt_upd hc]
  | cons f C ih =>
    simp only [plug, wordOf]
    congr 1
    unfold cnt
    split
    · rfl
    · congr 1
      funext d
      unfold present
      by_cases h : d = f.c
      · subst h
        simp only [upd_same]
        congr 1
        cases C <;> simp [plug]
      · simp [upd_of_ne _ _ h]

theorem rootWord_plug {C : Ctx} {a : Nat} {pfx : List UInt8} {big : Bool} {ch : UInt8 → T} {c : UInt8}
    {t1 : T} (hc : big = true ∨ t1.isEmpty = (ch c).isEmpty) :
    rootWord (plug C (.node a pfx big (upd ch c t1))) = rootWord (plug C (.node a pfx big ch)) := by
  have := wordOf_plug (C := C) (b := 0) (a := a) (pfx := pfx) hc
  cases C with
  | nil => exact this
  | cons f C => exact this

/-- Storing the word of `t1` in the slot of child `c` of a node of the tree. -/
theorem Repr_slot {m : Mem} {C : Ctx} {a : Nat} {pfx : List UInt8} {big : Bool} {ch : UInt8 → T} {c : UInt8}
    {t1 : T} (hs : big = true ∨ (ch c).isEmpty = false) (hc : big = true ∨ t1.isEmpty = (ch c).isEmpty)
    (hr : (plug C (.node a pfx big ch)).Repr m)
    (hsep : ∀ y, (plug C (.node a pfx big ch)).cover y ≤ 1)
    (h1 : t1.Repr m) (h1c : t1.cover (childSlot a pfx big ch c) = 0) :
    (plug C (.node a pfx big (upd ch c t1))).Repr (upd m (childSlot a pfx big ch c) (wordOf c t1)) := by
  have hrange := childSlot_range (a := a) (pfx := pfx) hs
  generalize hx : childSlot a pfx big ch c = x at *
  have hnode : 0 < (T.node a pfx big ch).cover x := by
    simp only [T.cover]
    rw [if_pos ⟨by omega, hrange.2⟩]
    omega
  induction C with
  | nil =>
    simp only [plug] at *
    refine ⟨⟨?_, ?_⟩, ?_⟩
    · apply hr.1.pre.congr
      intro y _ hy
      exact upd_of_ne _ _ (by omega)
    · intro d hd
      rw [childSlot_upd hc]
      by_cases hdc : d = c
      · subst hdc
        rw [hx, upd_same, upd_same]
      · rw [upd_of_ne _ _ hdc] at hd
        rw [upd_of_ne _ _ hdc, upd_of_ne]
        · exact hr.1.kid d hd
        · intro e
          exact hdc (childSlot_inj hd hs (e.trans hx.symm))
    · intro d
      by_cases hdc : d = c
      · subst hdc
        rw [upd_same]
        apply h1.congr
        intro y hy
        refine upd_of_ne _ _ ?_
        rintro rfl
        omega
      · rw [upd_of_ne _ _ hdc]
        apply (hr.2 d).congr
        intro y hy
        refine upd_of_ne _ _ ?_
        rintro rfl
        have h2 := hsep y
        have h3 := le_sumB (fun c => (ch c).cover y) d
        simp only [T.cover] at h2
        rw [if_pos ⟨by omega, hrange.2⟩] at h2
        omega
  | cons f C ih =>
    have hle : ∀ y, (plug C (.node a pfx big ch)).cover y ≤ (plug (f :: C) (.node a pfx big ch)).cover y := by
      intro y
      have := cover_child_le (a := f.addr) (pfx := f.pfx) (big := f.big)
        (ch := upd f.ch f.c (plug C (.node a pfx big ch))) f.c y
      simpa [plug] using this
    have hin : (plug C (.node a pfx big ch)).Repr m := by simpa using hr.2 f.c
    have hpos : 0 < (plug C (.node a pfx big ch)).cover x :=
      Nat.lt_of_lt_of_le hnode ((At_plug C _).cover_le x)
    have ihr := ih hin (fun y => Nat.le_trans (hle y) (hsep y))
    have hcompat : f.big = true ∨ (plug C (.node a pfx big (upd ch c t1))).isEmpty =
        (upd f.ch f.c (plug C (.node a pfx big ch)) f.c).isEmpty := by
      right; rw [upd_same]; cases C <;> rfl
    have hcov := hsep x
    simp only [plug, T.cover] at hcov
    have hsum := le_sumB (fun c' => (upd f.ch f.c (plug C (.node a pfx big ch)) c').cover x) f.c
    simp only [upd_same] at hsum
    have hnf : ¬ (f.addr ≤ x ∧ x < f.addr + nodeSize f.pfx f.big (upd f.ch f.c (plug C (.node a pfx big ch)))) := by
      intro h
      rw [if_pos h] at hcov
      omega
    have heq : plug (f :: C) (.node a pfx big (upd ch c t1)) = .node f.addr f.pfx f.big
        (upd (upd f.ch f.c (plug C (.node a pfx big ch))) f.c (plug C (.node a pfx big (upd ch c t1)))) := by
      simp [plug, upd_upd]
    rw [heq]
    refine ⟨⟨?_, ?_⟩, ?_⟩
    · apply hr.1.pre.congr
      intro y h2 h3
      refine upd_of_ne _ _ ?_
      rintro rfl
      apply hnf
      refine ⟨h2, ?_⟩
      unfold nodeSize
      omega
    · intro d hd
      rw [childSlot_upd hcompat]
      have hd' : f.big = true ∨ (upd f.ch f.c (plug C (.node a pfx big ch)) d).isEmpty = false := by
        by_cases hdc : d = f.c
        · subst hdc
          right; rw [upd_same]; cases C <;> rfl
        · rwa [upd_of_ne _ _ hdc] at hd
      have hold := hr.1.kid d hd'
      have hrg := childSlot_range (a := f.addr) (pfx := f.pfx) hd'
      have hnx : childSlot f.addr f.pfx f.big (upd f.ch f.c (plug C (.node a pfx big ch))) d ≠ x := by
        intro e
        rw [e] at hrg
        exact hnf ⟨by omega, hrg.2⟩
      rw [upd_of_ne _ _ hnx, hold]
      by_cases hdc : d = f.c
      · subst hdc
        rw [upd_same, upd_same]
        exact (wordOf_plug hc).symm
      · rw [upd_of_ne _ _ hdc, upd_of_ne _ _ hdc, upd_of_ne _ _ hdc]
    · intro d
      by_cases hdc : d = f.c
      · subst hdc
        rw [upd_same]
        exact ihr
      · rw [upd_of_ne _ _ hdc]
        apply (hr.2 d).congr
        intro y hy
        refine upd_of_ne _ _ ?_
        rintro rfl
        have h5 := add_le_sumB (fun c' => (upd f.ch f.c (plug C (.node a pfx big ch)) c').cover y) hdc
        simp only [upd_same] at h5
        omega

/-! ## Stability of positions -/

/-- How a child of a node that nobody locked may change. -/
def TopRel (big : Bool) (t t' : T) : Prop :=
  t' = t ∨ (∃ a pfx b ch ch', t = .node a pfx b ch ∧ t' = .node a pfx b ch' ∧ cnt b ch' = cnt b ch) ∨
    (big = true ∧ t.isLf = true ∧ t' = .empty)

theorem TopRel.refl (big : Bool) (t : T) : TopRel big t t := .inl rfl

/-- Every node outside the set `L` stays at its path, with related children. -/
def Stable (T0 T1 : T) (L : Nat → Prop) : Prop :=
  ∀ q a pfx big ch, At T0 q (.node a pfx big ch) → ¬ L a →
    ∃ ch', At T1 q (.node a pfx big ch') ∧ ∀ c, TopRel big (ch c) (ch' c)

theorem Stable.refl (t : T) (L : Nat → Prop) : Stable t t L :=
  fun _ _ _ _ ch h _ => ⟨ch, h, fun _ => .refl _ _⟩

/-- Replacing the subtree in a hole: the owner of the hole must be in `L`. -/
theorem Stable_plug {C : Ctx} {t0 t1 : T} {L : Nat → Prop} (hcp : Compat C t0 t1)
    (hL : ∀ f, C.getLast? = some f → L f.addr) (h : Stable t0 t1 L) :
    Stable (plug C t0) (plug C t1) L := by
  induction C with
  | nil => exact h
  | cons f C ih =>
    intro q a pfx big ch hat hna
    rcases hat.inv_node with ⟨rfl, he⟩ | ⟨c, r, rfl, hat'⟩
    · injection he with h1 h2 h3 h4
      subst h1 h2 h3 h4
      refine ⟨_, At.here _, ?_⟩
      intro c
      by_cases hc : c = f.c
      · subst hc
        simp only [upd_same]
        cases C with
        | nil => exact absurd (hL f (by simp)) hna
        | cons g C =>
          refine .inr (.inl ⟨_, _, _, _, _, rfl, rfl, ?_⟩)
          rw [← upd_upd g.ch g.c (plug C t0) (plug C t1)]
          exact cnt_upd (compat_upd hcp.tail)
      · rw [upd_of_ne _ _ hc, upd_of_ne _ _ hc]
        exact .refl _ _
    · by_cases hc : c = f.c
      · subst hc
        rw [upd_same] at hat'
        have hL' : ∀ g, C.getLast? = some g → L g.addr := by
          intro g hg
          cases C with
          | nil => simp at hg
          | cons f' C => exact hL g (by simpa [List.getLast?_cons_cons] using hg)
        obtain ⟨ch', h1, h2⟩ := ih hcp.tail hL' r a pfx big ch hat' hna
        exact ⟨ch', At.down (by rw [upd_same]; exact h1), h2⟩
      · rw [upd_of_ne _ _ hc] at hat'
        exact ⟨ch, At.down (by rw [upd_of_ne _ _ hc]; exact hat'), fun _ => .refl _ _⟩

/-- No nodes below: nothing to keep. -/
theorem Stable_of_not_node {t0 t1 : T} {L : Nat → Prop} (h : t0.isNode = false) : Stable t0 t1 L := by
  intro q a pfx big ch hat _
  cases t0 with
  | empty => exact absurd (hat.inv_empty.2) (by simp)
  | leaf k v => exact absurd (hat.inv_leaf.2) (by simp)
  | node => simp at h

/-- Replacing a node by another one holding the same child nodes at the same paths. -/
theorem Stable_node {a pfx big ch} {t1 : T} {L : Nat → Prop} (hL : L a)
    (h : ∀ c, (ch c).isNode = true → ∀ r t, t.isNode = true → At (ch c) r t → At t1 (pfx ++ c :: r) t) :
    Stable (.node a pfx big ch) t1 L := by
  intro q a' pfx' big' ch' hat hna
  rcases hat.inv_node with ⟨rfl, he⟩ | ⟨c, r, rfl, hat'⟩
  · injection he with h1 h2 h3 h4
    subst h1
    exact absurd hL hna
  · refine ⟨ch', h c ?_ r _ rfl hat', fun _ => .refl _ _⟩
    cases hcc : ch c with
    | empty => rw [hcc] at hat'; exact absurd (hat'.inv_empty.2) (by simp)
    | leaf k v => rw [hcc] at hat'; exact absurd (hat'.inv_leaf.2) (by simp)
    | node => rfl

/-- Deleting a leaf child of a 256-slot node in place. -/
theorem Stable_erase256 {C : Ctx} {a pfx ch c} {L : Nat → Prop} (hl : (ch c).isLf = true) :
    Stable (plug C (.node a pfx true ch)) (plug C (.node a pfx true (upd ch c .empty))) L := by
  induction C with
  | nil =>
    intro q a' pfx' big' ch' hat _
    rcases hat.inv_node with ⟨rfl, he⟩ | ⟨d, r, rfl, hat'⟩
    · injection he with h1 h2 h3 h4
      subst h1 h2 h3 h4
      refine ⟨_, At.here _, ?_⟩
      intro d
      by_cases hd : d = c
      · subst hd; rw [upd_same]; exact .inr (.inr ⟨rfl, hl, rfl⟩)
      · rw [upd_of_ne _ _ hd]; exact .refl _ _
    · have hd : d ≠ c := by
        rintro rfl
        cases hcc : ch d with
        | empty => simp [hcc] at hl
        | leaf k v => rw [hcc] at hat'; exact absurd (hat'.inv_leaf.2) (by simp)
        | node => simp [hcc] at hl
      exact ⟨ch', At.down (by rw [upd_of_ne _ _ hd]; exact hat'), fun _ => .refl _ _⟩
  | cons f C ih =>
    intro q a' pfx' big' ch' hat hna
    rcases hat.inv_node with ⟨rfl, he⟩ | ⟨d, r, rfl, hat'⟩
    · injection he with h1 h2 h3 h4
      subst h1 h2 h3 h4
      refine ⟨_, At.here _, ?_⟩
      intro d
      by_cases hd : d = f.c
      · subst hd
        simp only [upd_same]
        right; left
        cases C with
        | nil => exact ⟨_, _, _, _, _, rfl, rfl, cnt_upd (.inl rfl)⟩
        | cons g C =>
          refine ⟨_, _, _, _, _, rfl, rfl, ?_⟩
          have hcp : Compat (g :: C) (.node a pfx true ch) (.node a pfx true (upd ch c .empty)) := fun _ _ => .inr rfl
          rw [← upd_upd g.ch g.c (plug C (.node a pfx true ch)) (plug C (.node a pfx true (upd ch c .empty)))]
          exact cnt_upd (compat_upd hcp)
      · rw [upd_of_ne _ _ hd, upd_of_ne _ _ hd]; exact .refl _ _
    · by_cases hd : d = f.c
      · subst hd
        rw [upd_same] at hat'
        obtain ⟨ch1, h1, h2⟩ := ih r a' pfx' big' ch' hat' hna
        exact ⟨ch1, At.down (by rw [upd_same]; exact h1), h2⟩
      · rw [upd_of_ne _ _ hd] at hat'
        exact ⟨ch', At.down (by rw [upd_of_ne _ _ hd]; exact hat'), fun _ => .refl _ _⟩

/-! ## What happens to nodes -/

/-- Small nodes keep the set of their children. -/
def SameKids (big : Bool) (ch ch' : UInt8 → T) : Prop := big = false → ∀ c, (ch' c).isEmpty = (ch c).isEmpty

theorem SameKids.refl (big : Bool) (ch : UInt8 → T) : SameKids big ch ch := fun _ _ => rfl

theorem SameKids.trans {big : Bool} {ch ch' ch'' : UInt8 → T} (h : SameKids big ch ch') (h' : SameKids big ch' ch'') :
    SameKids big ch ch'' := fun hb c => (h' hb c).trans (h hb c)

theorem SameKids.symm {big : Bool} {ch ch' : UInt8 → T} (h : SameKids big ch ch') : SameKids big ch' ch :=
  fun hb c => (h hb c).symm

theorem SameKids.present {ch ch' : UInt8 → T} (h : SameKids false ch ch') : present ch' = present ch := by
  funext c; unfold Radix.present; rw [h rfl c]

theorem SameKids.cnt {big : Bool} {ch ch' : UInt8 → T} (h : SameKids big ch ch') : cnt big ch' = cnt big ch := by
  cases big with
  | true => rfl
  | false => unfold Radix.cnt; rw [h.present]

theorem SameKids.nodeSize {big : Bool} {ch ch' : UInt8 → T} (h : SameKids big ch ch') (pfx : List UInt8) :
    nodeSize pfx big ch' = nodeSize pfx big ch := by
  unfold Radix.nodeSize; rw [h.cnt]

theorem SameKids.childSlot {big : Bool} {ch ch' : UInt8 → T} (h : SameKids big ch ch') (a pfx c) :
    childSlot a pfx big ch' c = childSlot a pfx big ch c := by
  unfold Radix.childSlot idx
  cases big with
  | true => rfl
  | false => rw [h.present]

theorem SameKids_upd {big : Bool} {ch : UInt8 → T} {c : UInt8} {t : T} (h : big = true ∨ t.isEmpty = (ch c).isEmpty) :
    SameKids big ch (upd ch c t) := by
  intro hb d
  by_cases hd : d = c
  · subst hd
    rw [upd_same]
    exact h.resolve_left (by simp [hb])
  · rw [upd_of_ne _ _ hd]

/-- Every node of `t` (seen from path `p` of `t'`) is a node of `t'` at the same place, or none of its slots belongs to
a node of `t'`. -/
def KeepAt (p : Key) (t t' : T) : Prop :=
  ∀ q n pfx big ch, At t q (.node n pfx big ch) →
    (∃ ch', At t' (p ++ q) (.node n pfx big ch') ∧ SameKids big ch ch') ∨
    ∀ x, n ≤ x → x < n + nodeSize pfx big ch → t'.cover x = 0

/-- Every node of `t` stays in `t'` at its place, or disappears completely. -/
abbrev Keep (t t' : T) : Prop := KeepAt [] t t'

theorem Keep.refl (t : T) : Keep t t := fun _ _ _ _ ch h => .inl ⟨ch, h, .refl _ _⟩

theorem KeepAt.of_not_node {p : Key} {t t' : T} (h : t.isNode = false) : KeepAt p t t' := by
  intro q n pfx big ch hat
  cases t with
  | empty => exact absurd (hat.inv_empty.2) (by simp)
  | leaf k v => exact absurd (hat.inv_leaf.2) (by simp)
  | node => simp at h

theorem KeepAt.sub {p : Key} {t t' : T} (h : At t' p t) : KeepAt p t t' :=
  fun _ _ _ _ ch hat => .inl ⟨ch, h.trans hat, .refl _ _⟩

theorem KeepAt.node {p : Key} {n pfx big ch} {t' : T}
    (h : ∀ x, n ≤ x → x < n + nodeSize pfx big ch → t'.cover x = 0)
    (hc : ∀ c, KeepAt (p ++ pfx ++ [c]) (ch c) t') : KeepAt p (.node n pfx big ch) t' := by
  intro q n' pfx' big' ch' hat
  rcases hat.inv_node with ⟨rfl, he⟩ | ⟨c, r, rfl, hat'⟩
  · injection he with h1 h2 h3 h4
    subst h1 h2 h3 h4
    exact .inr h
  · rcases hc c r n' pfx' big' ch' hat' with ⟨ch2, h1, h2⟩ | h1
    · exact .inl ⟨ch2, by simpa using h1, h2⟩
    · exact .inr h1

theorem KeepAt.uncovered {p : Key} {t t' : T} (h : ∀ x, t'.cover x = 0) : KeepAt p t t' :=
  fun _ _ _ _ _ _ => .inr fun x _ _ => h x

/-- Replacing the subtree in a hole. -/
theorem Keep_plug {C : Ctx} {t0 t1 : T} (hcp : Compat C t0 t1) (hsep : ∀ x, (plug C t0).cover x ≤ 1) (h : Keep t0 t1) :
    Keep (plug C t0) (plug C t1) := by
  have hun : ∀ x, 0 < t0.cover x → t1.cover x = 0 → (plug C t1).cover x = 0 := by
    intro x h1 h2
    have := cover_plug hcp x
    have := hsep x
    omega
  have hin : ∀ q n pfx big ch, At t0 q (.node n pfx big ch) →
      (∃ ch', At t1 q (.node n pfx big ch') ∧ SameKids big ch ch') ∨
      ∀ x, n ≤ x → x < n + nodeSize pfx big ch → (plug C t1).cover x = 0 := by
    intro q n pfx big ch hat
    rcases h q n pfx big ch hat with ⟨ch', h1, h2⟩ | h1
    · exact .inl ⟨ch', h1, h2⟩
    · refine .inr fun x h2 h3 => hun x ?_ (h1 x h2 h3)
      exact hat.cover_node h2 h3
  clear h
  -- every node of the context stays
  have key : ∀ (D : Ctx), Compat D t0 t1 → ∀ q n pfx big ch, At (plug D t0) q (.node n pfx big ch) →
      (∃ ch', At (plug D t1) q (.node n pfx big ch') ∧ SameKids big ch ch') ∨
      ∀ x, n ≤ x → x < n + nodeSize pfx big ch → (plug C t1).cover x = 0 := by
    intro D
    induction D with
    | nil => intro _; exact hin
    | cons f D ih =>
      intro hD q n pfx big ch hat
      rcases hat.inv_node with ⟨rfl, he⟩ | ⟨c, r, rfl, hat'⟩
      · injection he with h1 h2 h3 h4
        subst h1 h2 h3 h4
        refine .inl ⟨_, At.here _, ?_⟩
        rw [← upd_upd f.ch f.c (plug D t0) (plug D t1)]
        exact SameKids_upd (compat_upd hD)
      · by_cases hc : c = f.c
        · subst hc
          rw [upd_same] at hat'
          rcases ih hD.tail r n pfx big ch hat' with ⟨ch', h1, h2⟩ | h1
          · exact .inl ⟨ch', At.down (by rw [upd_same]; exact h1), h2⟩
          · exact .inr h1
        · rw [upd_of_ne _ _ hc] at hat'
          exact .inl ⟨ch, At.down (by rw [upd_of_ne _ _ hc]; exact hat'), .refl _ _⟩
  exact key C hcp

end Radix
