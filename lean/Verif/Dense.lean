import Verif.FinCommon
/-!
# Trees without deletions: every 256-slot node has at least 128 children
-/
set_option autoImplicit false
namespace Radix
open T

/-- Every 256-slot node has at least 128 children. -/
def T.Dense : T → Prop
  | .empty => True
  | .leaf _ _ => True
  | .node _ _ big ch => (big = true → 128 ≤ cntOf (present ch)) ∧ ∀ c, (ch c).Dense

theorem cntOf_mono {p q : UInt8 → Bool} (h : ∀ c, p c = true → q c = true) : cntOf p ≤ cntOf q := by
  unfold cntOf kidsOf
  rw [← List.countP_eq_length_filter, ← List.countP_eq_length_filter]
  exact List.countP_mono_left fun c _ => h c

theorem Dense_upd {big : Bool} {ch : UInt8 → T} {c : UInt8} {t1 : T} (h1 : big = true → 128 ≤ cntOf (present ch)) (hne : t1.isEmpty = false) :
    big = true → 128 ≤ cntOf (present (upd ch c t1)) := by
  intro hb
  refine Nat.le_trans (h1 hb) (cntOf_mono fun d hd => ?_)
  unfold present upd
  split
  · rw [hne]; rfl
  · exact hd

theorem Dense_plug_sub : ∀ {C : Ctx} {t0 : T}, (plug C t0).Dense → t0.Dense
  | [], _, h => h
  | f :: C, t0, h => by
    have := h.2 f.c
    rw [upd_same] at this
    exact Dense_plug_sub this

theorem Dense_plug : ∀ {C : Ctx} {t0 t1 : T}, (plug C t0).Dense → t1.isEmpty = false → t1.Dense → (plug C t1).Dense
  | [], _, _, _, _, h1 => h1
  | f :: C, t0, t1, h, hne, h1 => by
    simp only [plug, T.Dense] at h ⊢
    have hp : (plug C t1).isEmpty = false := by
      cases C with
      | nil => exact hne
      | cons => rfl
    have e : upd f.ch f.c (plug C t1) = upd (upd f.ch f.c (plug C t0)) f.c (plug C t1) := by rw [upd_upd]
    refine ⟨?_, ?_⟩
    · rw [e]
      exact Dense_upd h.1 hp
    · intro c
      by_cases hc : c = f.c
      · subst hc
        rw [upd_same]
        have := h.2 f.c
        rw [upd_same] at this
        exact Dense_plug this hne h1
      · have := h.2 c
        rw [upd_of_ne _ _ hc] at this ⊢
        exact this

theorem Dense_ch2 {n pfx} {a b : UInt8} {ta tb : T} (hab : a ≠ b) (ha : ta.Dense) (hb : tb.Dense) :
    (T.node n pfx false (ch2 a ta b tb)).Dense := by
  refine ⟨by simp, ?_⟩
  exact ch2_forall (Q := fun _ t => t.Dense) hab ha hb fun _ => trivial

theorem Dense_insert {n n' pfx pfx' big big' ch} {k : UInt8} {key : Key} {v : Word} (h : big' = true → 128 ≤ cntOf (present (upd ch k (.leaf key v))))
    (hd : (T.node n pfx big ch).Dense) : (T.node n' pfx' big' (upd ch k (.leaf key v))).Dense := by
  refine ⟨h, fun c => ?_⟩
  by_cases hc : c = k
  · subst hc; rw [upd_same]; trivial
  · rw [upd_of_ne _ _ hc]; exact hd.2 c

/-! ## Nodes with 256 slots -/

/-- The tree has a node with 256 slots that branches after the bytes `p`. -/
def T.HasBig : T → List UInt8 → Prop
  | .node _ pfx big ch, p => (big = true ∧ p = pfx) ∨ ∃ c r, p = pfx ++ c :: r ∧ (ch c).HasBig r
  | _, _ => False

/-- The nodes with 256 slots of the first tree are also in the second. -/
def KeepBig (t t' : T) : Prop := ∀ p, t.HasBig p → t'.HasBig p

theorem KeepBig.refl (t : T) : KeepBig t t := fun _ h => h

theorem KeepBig.of_not_node {t t' : T} (h : t.isNode = false) : KeepBig t t' := by
  intro p hp
  cases t with
  | node => cases h
  | _ => cases hp

theorem KeepBig.kid {n pfx big ch c t1} (h : KeepBig (ch c) t1) : KeepBig (.node n pfx big ch) (.node n pfx big (upd ch c t1)) := by
  rintro p (h1 | ⟨d, r, e, h1⟩)
  · exact .inl h1
  · refine .inr ⟨d, r, e, ?_⟩
    by_cases hd : d = c
    · subst hd; rw [upd_same]; exact h r h1
    · rw [upd_of_ne _ _ hd]; exact h1

theorem KeepBig.plug {t0 t1 : T} (h : KeepBig t0 t1) : ∀ (C : Ctx), KeepBig (plug C t0) (plug C t1)
  | [] => h
  | f :: C => by
    have := KeepBig.kid (n := f.addr) (pfx := f.pfx) (big := f.big) (ch := upd f.ch f.c (Radix.plug C t0)) (c := f.c) (t1 := Radix.plug C t1)
      (by rw [upd_same]; exact KeepBig.plug h C)
    rw [upd_upd] at this
    exact this

/-- A child without nodes is replaced, and the node may become one with 256 slots. -/
theorem KeepBig.node {n n' pfx big big' ch} {k : UInt8} {t1 : T} (hb : big = true → big' = true) (hk : (ch k).isNode = false) :
    KeepBig (.node n pfx big ch) (.node n' pfx big' (upd ch k t1)) := by
  rintro p (⟨h1, h2⟩ | ⟨d, r, e, h1⟩)
  · exact .inl ⟨hb h1, h2⟩
  · refine .inr ⟨d, r, e, ?_⟩
    by_cases hd : d = k
    · subst hd; exact absurd h1 (KeepBig.of_not_node (t' := .empty) hk r · )
    · rw [upd_of_ne _ _ hd]; exact h1

/-- A child was replaced by one without nodes. -/
theorem KeepBig.unnode {n n' pfx big big' ch} {k : UInt8} {t1 : T} (hb : big' = true → big = true) (hk : t1.isNode = false) :
    KeepBig (.node n' pfx big' (upd ch k t1)) (.node n pfx big ch) := by
  have := KeepBig.node (n := n') (n' := n) (pfx := pfx) (big := big') (big' := big) (ch := upd ch k t1) (k := k) (t1 := ch k) hb
    (by rw [upd_same]; exact hk)
  rw [upd_upd, upd_self] at this
  exact this

/-- The prefix is split. -/
theorem KeepBig.split {n n' n1 p1 kb p2 big ch} {b : Bool} {ch' : UInt8 → T} (h : ch' kb = .node n1 p2 big ch) :
    KeepBig (.node n (p1 ++ kb :: p2) big ch) (.node n' p1 b ch') := by
  intro p hp
  have : ∃ r, p = p1 ++ kb :: r ∧ (T.node n1 p2 big ch).HasBig r := by
    rcases hp with ⟨h1, h2⟩ | ⟨d, r, e, h1⟩
    · exact ⟨p2, h2, .inl ⟨h1, rfl⟩⟩
    · exact ⟨p2 ++ d :: r, by rw [e]; simp, .inr ⟨d, r, rfl, h1⟩⟩
  obtain ⟨r, e, h1⟩ := this
  exact .inr ⟨kb, r, e, by rw [h]; exact h1⟩

/-- A node with two children, the other one a leaf, is merged with its child. -/
theorem KeepBig.merge {n n' n1 pfx pfx2 big2 kids} {k k2 : UInt8} {lk : Key} {lv : Word} (hne : k ≠ k2) :
    KeepBig (.node n pfx false (ch2 k (.leaf lk lv) k2 (.node n1 pfx2 big2 kids))) (.node n' (pfx ++ k2 :: pfx2) big2 kids) := by
  rintro p (⟨h1, _⟩ | ⟨d, r, e, h1⟩)
  · cases h1
  · have hd : d = k2 ∧ (T.node n1 pfx2 big2 kids).HasBig r := by
      by_cases hd : d = k2
      · subst hd; rw [ch2_snd] at h1; exact ⟨rfl, h1⟩
      · exfalso
        by_cases hd' : d = k
        · subst hd'; rw [ch2_fst hne] at h1; exact h1
        · simp only [ch2, upd, if_neg hd, if_neg hd'] at h1; exact h1
    obtain ⟨rfl, h2⟩ := hd
    rcases h2 with ⟨h3, h4⟩ | ⟨d', r', e', h3⟩
    · exact .inl ⟨h3, by rw [e, h4]⟩
    · exact .inr ⟨d', r', by rw [e, e']; simp, h3⟩

theorem KeepBig.leaves {n pfx} {k k2 : UInt8} {t1 t2 : T} {t' : T} (h1 : t1.isNode = false) (h2 : t2.isNode = false) (hne : k ≠ k2) :
    KeepBig (.node n pfx false (ch2 k t1 k2 t2)) t' := by
  rintro p (⟨h, _⟩ | ⟨d, r, e, h⟩)
  · cases h
  · have := ch2_forall (Q := fun _ t => t.isNode = false) hne h1 h2 (fun _ => rfl) d
    exact absurd h (KeepBig.of_not_node (t' := .empty) this r ·)

end Radix
