import Verif.Sys.Inv
/-!
# What happens to nodes that are built but not in the tree yet, when other operations take steps
-/
namespace Radix
open T

theorem TopRel.sameKids {big : Bool} {ch ch' : UInt8 → T} (h : ∀ c, TopRel big (ch c) (ch' c)) : SameKids big ch ch' := by
  intro hb c
  rcases h c with h1 | ⟨_, _, _, _, _, h1, h2, _⟩ | ⟨h1, _⟩
  · rw [h1]
  · rw [h1, h2]; rfl
  · simp [hb] at h1

theorem TopRel.of_leaf {big : Bool} {k v} {t' : T} (h : TopRel big (.leaf k v) t') : t' = .leaf k v ∨ (big = true ∧ t' = .empty) := by
  rcases h with h1 | ⟨_, _, _, _, _, h1, _⟩ | ⟨h1, _, h2⟩
  · exact .inl h1
  · exact absurd h1 (by simp)
  · exact .inr ⟨h1, h2⟩

theorem TopRel.of_empty {big : Bool} {t' : T} (h : TopRel big .empty t') : t' = .empty := by
  rcases h with h1 | ⟨_, _, _, _, _, h1, _⟩ | ⟨h1, h2, _⟩
  · exact h1
  · exact absurd h1 (by simp)
  · simp at h2

theorem TopRel.of_node {big : Bool} {n pfx b ch} {t' : T} (h : TopRel big (.node n pfx b ch) t') :
    ∃ ch', t' = .node n pfx b ch' ∧ cnt b ch' = cnt b ch := by
  rcases h with h1 | ⟨_, _, _, _, ch', h1, h2, h3⟩ | ⟨h1, h2, _⟩
  · exact ⟨ch, h1, rfl⟩
  · injection h1 with e1 e2 e3 e4
    subst e1 e2 e3 e4
    exact ⟨ch', h2, h3⟩
  · simp at h2

/-- The step leaves alone the memory that an operation between building and publishing relies on: its new nodes, and the node it has
copied. -/
def Keeps (st st' : St) (t : T) (p : Proc) : Prop :=
  ∀ x, (0 < p.priv x ∨ (0 < t.cover x ∧ 0 < p.copied x)) → st'.mem x = st.mem x

theorem seg_pos {n k x : Nat} : 0 < seg n k x ↔ n ≤ x ∧ x < n + k := by
  unfold seg
  split <;> simp_all

theorem Made.evo {st st' : St} {n pfx big ch} (h : Made st n pfx big ch) (hbn : st.baNext ≤ st'.baNext)
    (hm : ∀ x, n ≤ x → x < n + nodeSize pfx big ch → st'.mem x = st.mem x) : Made st' n pfx big ch :=
  ⟨h.mem.congr hm, h.pos.mono hbn⟩

/-- Seen from the parent, the children of a node that was not written to are the same. -/
theorem TopRel.kids {m m' : Mem} {n : Nat} {pfx : List UInt8} {big : Bool} {ch ch' : UInt8 → T} (h : ∀ c, TopRel big (ch c) (ch' c))
    (hr : NodeMem m n pfx big ch) (hr' : NodeMem m' n pfx big ch')
    (hm : big = true → ∀ x, n ≤ x → x < n + nodeSize pfx big ch → m' x = m x) :
    ∀ c, wordOf c (ch c) = wordOf c (ch' c) ∧ (ch c).isEmpty = (ch' c).isEmpty := by
  intro c
  rcases h c with h1 | ⟨_, _, _, _, _, h1, h2, h3⟩ | ⟨hb, h1, h2⟩
  · rw [h1]; exact ⟨rfl, rfl⟩
  · rw [h1, h2]
    exact ⟨by simp only [wordOf, h3], rfl⟩
  · exfalso
    have hs := (TopRel.sameKids h).childSlot (a := n) (pfx := pfx) c
    have e1 := hr.kid c (.inl hb)
    have e2 := hr'.kid c (.inl hb)
    have hrg := childSlot_range (a := n) (pfx := pfx) (big := big) (ch := ch) (c := c) (.inl hb)
    rw [hs, hm hb _ (by omega) hrg.2, e1, h2] at e2
    cases hc : ch c with
    | empty => rw [hc] at h1; simp at h1
    | node => rw [hc] at h1; simp at h1
    | leaf k v =>
      rw [hc] at e2
      exact buildLeaf_ne_zero c v e2

theorem Halves.evo {st st' : St} {p key : Key} {value : Word} {lk lv c n} (h : Halves st p key value lk lv c n)
    (hbn : st.baNext ≤ st'.baNext) (hm : ∀ x, 0 < seg n (2 + prefixSlots c.length) x → st'.mem x = st.mem x) :
    Halves st' p key value lk lv c n := by
  obtain ⟨ka, kb, r, s, h1, h2, h3, h4⟩ := h
  refine ⟨ka, kb, r, s, h1, h2, h3, h4.evo hbn fun x hx1 hx2 => hm x (seg_pos.2 ⟨hx1, ?_⟩)⟩
  have : nodeSize c false (ch2 ka (.leaf key (trunc55 value)) kb (.leaf lk lv)) = 2 + prefixSlots c.length := by
    simp [nodeSize, cnt, cntOf_ch2 (ta := .leaf key (trunc55 value)) (tb := .leaf lk lv) rfl rfl h3, Nat.add_comm]
  omega

theorem wordOf_upd {ch ch' : UInt8 → T} {k : UInt8} {tk : T}
    (h : ∀ c, wordOf c (ch c) = wordOf c (ch' c) ∧ (ch c).isEmpty = (ch' c).isEmpty) :
    ∀ c, wordOf c (upd ch k tk c) = wordOf c (upd ch' k tk c) ∧ (upd ch k tk c).isEmpty = (upd ch' k tk c).isEmpty := by
  intro c
  by_cases hc : c = k
  · subst hc; simp
  · rw [upd_of_ne _ _ hc, upd_of_ne _ _ hc]; exact h c

theorem cnt_words {big : Bool} {ch ch' : UInt8 → T} (he : ∀ c, (ch c).isEmpty = (ch' c).isEmpty) : cnt big ch = cnt big ch' := by
  have hp : present ch = present ch' := by funext c; simp [present, he]
  unfold cnt; rw [hp]

section
variable {env : Env} {st st' : St} {t t' : T}

/-- The nodes built by an update stay as they are, while the node they are to replace is not changed. -/
theorem UBlt.evo {op : UpdOp} {value : Word} {cm : Commit} {q pfx : List UInt8} {big : Bool} {ch ch' : UInt8 → T}
    (h : UBlt env.P st t op value cm q pfx big ch) (hbn : st.baNext ≤ st'.baNext)
    (hk : ∀ x, (0 < cm.priv x ∨ (0 < t.cover x ∧ 0 < cm.ok.seg x)) → st'.mem x = st.mem x)
    (hroot : op.kind.isRoot = true → t' = t)
    (hnode : op.kind.isRoot = false → UKnow env t op q pfx big ch ∧ (∀ c, TopRel big (ch c) (ch' c)) ∧
      NodeMem st.mem op.node pfx big ch ∧ NodeMem st'.mem op.node pfx big ch') :
    UBlt env.P st' t' op value cm q pfx big ch' := by
  unfold UBlt at h ⊢
  have hone : ∀ {n k : Nat} {cm' : Commit}, cm = cm' → cm'.nodes = [(n, k)] → ∀ x, 0 < seg n k x → st'.mem x = st.mem x := by
    intro n k cm' e1 e2 x hx
    refine hk x (.inl ?_)
    subst e1
    rw [priv_one _ _ e2]
    exact hx
  split at h <;> rename_i hkind
  · exact h
  · intro lk lv e
    rw [hroot (by rw [hkind]; rfl)] at e
    obtain ⟨n, h1, h2⟩ := h lk lv e
    exact ⟨n, h1.evo hbn (hone h2 rfl), h2⟩
  · intro lk lv e
    rw [hroot (by rw [hkind]; rfl)] at e
    rcases h lk lv e with h | ⟨h0, c, n, h1, h2⟩
    · exact .inl h
    · exact .inr ⟨h0, c, n, h1.evo hbn (hone h2 rfl), h2⟩
  · obtain ⟨p1, kb, p2, ka, rest, n1, n2, h1, h2, h3, h4, h5, h6⟩ := h
    obtain ⟨hkn, htop, hm, hm'⟩ := hnode (by rw [hkind]; rfl)
    have hpv : ∀ x, cm.priv x = seg n1 (op.count + prefixSlots p2.length) x + seg n2 (2 + prefixSlots p1.length) x := by
      intro x; rw [h6]; simp [Commit.priv]
    have hkids := TopRel.kids htop hm hm' (fun _ x hx1 hx2 => hk x (.inr ⟨hkn.at'.cover_node hx1 hx2, by
      rw [h6]
      refine seg_pos.2 ⟨hx1, ?_⟩
      unfold nodeSize at hx2
      rw [hkn.count, hkn.slots]
      omega⟩))
    have hw := fun c => (hkids c).1
    have he := fun c => (hkids c).2
    refine ⟨p1, kb, p2, ka, rest, n1, n2, h1, h2, h3, ?_, ?_, h6⟩
    · refine (h4.evo hbn fun x hx1 hx2 => hk x (.inl ?_)).words hw he
      have : 0 < seg n1 (op.count + prefixSlots p2.length) x := by
        refine seg_pos.2 ⟨hx1, ?_⟩
        unfold nodeSize at hx2
        rw [hkn.count]; omega
      have := hpv x
      omega
    · have h7 := h5.evo (st' := st') hbn fun x hx1 hx2 => hk x (.inl (by
        have : 0 < seg n2 (2 + prefixSlots p1.length) x := by
          refine seg_pos.2 ⟨hx1, ?_⟩
          have : nodeSize p1 false (ch2 ka (.leaf op.key (trunc55 value)) kb (.node n1 p2 big ch)) = 2 + prefixSlots p1.length := by
            simp [nodeSize, cnt, cntOf_ch2 (ta := .leaf op.key (trunc55 value)) (tb := .node n1 p2 big ch) rfl rfl h3, Nat.add_comm]
          omega
        have := hpv x
        omega))
      have hcnt := cnt_words (big := big) he
      have hx : ∀ c, wordOf c (ch2 ka (.leaf op.key (trunc55 value)) kb (.node n1 p2 big ch) c) =
          wordOf c (ch2 ka (.leaf op.key (trunc55 value)) kb (.node n1 p2 big ch') c) ∧
          (ch2 ka (.leaf op.key (trunc55 value)) kb (.node n1 p2 big ch) c).isEmpty =
          (ch2 ka (.leaf op.key (trunc55 value)) kb (.node n1 p2 big ch') c).isEmpty := by
        intro c
        by_cases hc : c = ka
        · subst hc
          rw [ch2_fst h3, ch2_fst h3]; exact ⟨rfl, rfl⟩
        · by_cases hc2 : c = kb
          · subst hc2
            rw [ch2_snd, ch2_snd]
            exact ⟨by simp only [wordOf, hcnt], rfl⟩
          · rw [ch2_other hc hc2, ch2_other hc hc2]; exact ⟨rfl, rfl⟩
      exact h7.words (fun c => (hx c).1) (fun c => (hx c).2)
  · exact h
  · obtain ⟨n, big', h1, h2, h3⟩ := h
    obtain ⟨hkn, htop, hm, hm'⟩ := hnode (by rw [hkind]; rfl)
    have hbe : big = false ∧ ch op.k = .empty := by
      rcases hkn.kind with ⟨e, _⟩ | ⟨_, ⟨e, _⟩ | ⟨_, e1, e2, _⟩ | ⟨e, _⟩⟩
      · rw [hkind] at e; cases e
      · rw [hkind] at e; cases e
      · exact ⟨e1, e2⟩
      · rw [hkind] at e; split at e <;> cases e
    obtain ⟨rfl, hemp⟩ := hbe
    have hkids := TopRel.kids htop hm hm' (fun e => by cases e)
    have hw := wordOf_upd (k := op.k) (tk := .leaf op.key (trunc55 value)) hkids
    refine ⟨n, big', h1, ?_, h3⟩
    refine (h2.evo hbn fun x hx1 hx2 => hone h3 rfl x (seg_pos.2 ⟨hx1, ?_⟩)).words (fun c => (hw c).1) (fun c => (hw c).2)
    have hcount : op.count = cntOf (present ch) := hkn.count
    unfold nodeSize at hx2
    cases big' with
    | true => simp only [cnt, if_true] at hx2 ⊢; omega
    | false =>
      simp only [cnt, Bool.false_eq_true, if_false] at hx2 ⊢
      rw [cntOf_upd_insert (by rw [hemp]; rfl) rfl] at hx2
      omega
  · intro lk lv e1 e2 e3 e4
    rcases h lk lv e1 e2 e3 e4 with h | ⟨h0, c, n, h1, h2⟩
    · exact .inl h
    · exact .inr ⟨h0, c, n, h1.evo hbn (hone h2 rfl), h2⟩
  · intro lk lv e1 e2 e3 e4
    rcases h lk lv e1 e2 e3 e4 with h | ⟨h0, c, n, h1, h2⟩
    · exact .inl h
    · exact .inr ⟨h0, c, n, h1.evo hbn (hone h2 rfl), h2⟩

/-- The same for a delete that replaces the node by a smaller copy. -/
theorem DBlt.evo_shrink {op : DelOp} {key : Key} {cm : Commit} {q pfx : List UInt8} {ch ch' : UInt8 → T} {big2 : Bool} {kids : UInt8 → T}
    (hkind : op.kind = .deleteLeaf ∨ op.kind = .replaceNodeWithLeaf)
    (h : DBlt st op cm pfx ch big2 kids) (hbn : st.baNext ≤ st'.baNext)
    (hk : ∀ x, (0 < cm.priv x ∨ (0 < t.cover x ∧ 0 < cm.ok.seg x)) → st'.mem x = st.mem x)
    (hkn : DKnow t op key q pfx ch) (htop : ∀ c, TopRel false (ch c) (ch' c)) (hm : NodeMem st.mem op.node pfx false ch)
    (hm' : NodeMem st'.mem op.node pfx false ch') : DBlt st' op cm pfx ch' big2 kids := by
  unfold DBlt at h ⊢
  rcases hkind with hkind | hkind
  · simp only [hkind] at h ⊢
    obtain ⟨n, k, h0, h1, h2, h3⟩ := h
    have hkids := TopRel.kids htop hm hm' (fun e => by cases e)
    have hw := wordOf_upd (k := k) (tk := .empty) hkids
    have hp : present ch = present ch' := by funext c; simp [present, (hkids c).2]
    refine ⟨n, k, by rw [← hp]; exact h0, by rw [← hp]; exact h1, ?_, h3⟩
    refine (h2.evo hbn fun x hx1 hx2 => hk x (.inl ?_)).words (fun c => (hw c).1) (fun c => (hw c).2)
    rw [priv_one n (op.count - 1 + prefixSlots pfx.length) (by rw [h3])]
    refine seg_pos.2 ⟨hx1, ?_⟩
    have hce := cntOf_upd_erase (ch := ch) (k := k) (by simpa [present] using h0)
    have hcount : op.count = cntOf (present ch) := by
      rcases hkn.kind with ⟨_, _, _, _, _, _, _, e, _⟩ | ⟨e, _⟩
      · exact e
      · rw [hkind] at e; cases e
    unfold nodeSize at hx2
    simp only [cnt, Bool.false_eq_true, if_false] at hx2
    omega
  · simp only [hkind] at h ⊢
    exact h

/-- The same for a delete that merges the node with its other child. -/
theorem DBlt.evo_merge {op : DelOp} {cm : Commit} {pfx pfx' pfx2 : List UInt8} {q2 : Key} {ch ch' : UInt8 → T} {big2 : Bool}
    {kids kids' : UInt8 → T} (hkind : op.kind = .replaceNodeWithNode)
    (h : DBlt st op cm pfx ch big2 kids) (hbn : st.baNext ≤ st'.baNext)
    (hk : ∀ x, (0 < cm.priv x ∨ (0 < t.cover x ∧ 0 < cm.ok.seg x)) → st'.mem x = st.mem x)
    (hat : At t q2 (.node op.child pfx2 big2 kids)) (hcount : op.count = cnt big2 kids) (hslots : op.prefixSlots = prefixSlots pfx2.length)
    (htop : ∀ c, TopRel big2 (kids c) (kids' c)) (hm : NodeMem st.mem op.child pfx2 big2 kids)
    (hm' : NodeMem st'.mem op.child pfx2 big2 kids') : DBlt st' op cm pfx' ch' big2 kids' := by
  unfold DBlt at h ⊢
  simp only [hkind] at h ⊢
  obtain ⟨n, h2, h3⟩ := h
  have hkids := TopRel.kids htop hm hm' (fun _ x hx1 hx2 => hk x (.inr ⟨hat.cover_node hx1 hx2, by
    rw [h3]
    refine seg_pos.2 ⟨hx1, ?_⟩
    unfold nodeSize at hx2
    rw [hcount, hslots]
    omega⟩))
  refine ⟨n, ?_, h3⟩
  refine (h2.evo hbn fun x hx1 hx2 => hk x (.inl ?_)).words (fun c => (hkids c).1) (fun c => (hkids c).2)
  rw [priv_one n (op.count + prefixSlots op.pfx.length) (by rw [h3])]
  refine seg_pos.2 ⟨hx1, ?_⟩
  unfold nodeSize at hx2
  omega

end

end Radix
