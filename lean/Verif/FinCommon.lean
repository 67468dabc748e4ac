import Verif.Fin
/-!
# Common parts of the `Finalize` proofs
-/
namespace Radix
open T

/-- What is assumed about the stored pairs: nonempty keys of bounded length, none a proper prefix of another. -/
structure KeysOK (P : Key → Word → Prop) : Prop where
  ne : ∀ {k v}, P k v → k ≠ []
  len : ∀ {k v}, P k v → k.length < maxKeyLen
  free : ∀ {k v k' v'}, P k v → P k' v' → k <+: k' → k = k'

/-- `t'` is `t` with `key` bound to `val`. -/
def Upd1 (t t' : T) (key : Key) (val : Word) : Prop :=
  ∀ k v, t'.Has k v ↔ (k = key ∧ v = val) ∨ (k ≠ key ∧ t.Has k v)

/-- `t'` is `t` without `key`. -/
def Del1 (t t' : T) (key : Key) : Prop := ∀ k v, t'.Has k v ↔ k ≠ key ∧ t.Has k v

theorem Upd1.plug {P C t0 t1 key val} (hwf : (plug C t0).WF P []) (hp : pathOf C <+: key) (h : Upd1 t0 t1 key val) :
    Upd1 (plug C t0) (plug C t1) key val := by
  intro k v
  rw [has_plug, has_plug, h k v]
  constructor
  · rintro (h1 | h1 | h1)
    · refine .inr ⟨?_, .inl h1⟩
      rintro rfl
      exact outside_not_prefix hwf h1 (by simpa using hp)
    · exact .inl h1
    · exact .inr ⟨h1.1, .inr h1.2⟩
  · rintro (h1 | ⟨h1, h2 | h2⟩)
    · exact .inr (.inl h1)
    · exact .inl h2
    · exact .inr (.inr ⟨h1, h2⟩)

theorem Del1.plug {P C t0 t1 key} (hwf : (plug C t0).WF P []) (hp : pathOf C <+: key) (h : Del1 t0 t1 key) :
    Del1 (plug C t0) (plug C t1) key := by
  intro k v
  rw [has_plug, has_plug, h k v]
  constructor
  · rintro (h1 | h1)
    · refine ⟨?_, .inl h1⟩
      rintro rfl
      exact outside_not_prefix hwf h1 (by simpa using hp)
    · exact ⟨h1.1, .inr h1.2⟩
  · rintro ⟨h1, h2 | h2⟩
    · exact .inl h2
    · exact .inr ⟨h1, h2⟩

theorem not_has_plug {P C t0 key v} (hwf : (plug C t0).WF P []) (hp : pathOf C <+: key) (h : ¬ t0.Has key v) :
    ¬ (plug C t0).Has key v := by
  rw [has_plug]
  rintro (h1 | h1)
  · exact outside_not_prefix hwf h1 (by simpa using hp)
  · exact h h1

/-- The operation refers to this node of the tree. -/
structure NodeAt (t : T) (C : Ctx) (node parent : Nat) (nodePtr : Ptr) (raw : Word) (pfx : List UInt8) (big : Bool)
    (ch : UInt8 → T) : Prop where
  tree : t = plug C (.node node pfx big ch)
  norm : Norm C (.node node pfx big ch)
  ptr : nodePtr = holePtr C
  par : parent = holeParent C
  byte : keyByte raw = holeByte C

theorem holeWord_node (C : Ctx) (n pfx big ch) :
    holeWord C (.node n pfx big ch) = buildNode (holeByte C) n (cnt big ch) pfx.length := by
  unfold holeWord holeByte
  cases C.getLast? <;> rfl

theorem holeParent_mem {P st t C node parent nodePtr raw pfx big ch N0} (hcore : CoreN P st t N0)
    (hat : NodeAt t C node parent nodePtr raw pfx big ch) {f : Frame} (hf : C.getLast? = some f) :
    f.addr ∈ lockList2 node parent := by
  have hp : parent = f.addr := by rw [hat.par]; simp [holeParent, hf]
  have h0 : 0 < f.addr := by
    rcases ctx_cases C with rfl | ⟨D, g, rfl⟩
    · simp at hf
    · have : g = f := by simpa using hf
      subst this
      have h1 := hat.tree
      rw [plug_last hat.norm] at h1
      have h2 := hcore.inb
      rw [h1] at h2
      exact ((At_plug D _).inBlocks h2).1.1
  unfold lockList2
  rw [if_neg (by omega)]
  simp [hp]

theorem mem_lockList2 (node parent : Nat) : node ∈ lockList2 node parent := by
  unfold lockList2; split <;> simp

theorem NodeAt.core {P st t C node parent nodePtr raw pfx big ch N0} (hcore : CoreN P st t N0)
    (hat : NodeAt t C node parent nodePtr raw pfx big ch) :
    (T.node node pfx big ch).InBlocks st.baNext ∧ (T.node node pfx big ch).Repr st.mem ∧
    (T.node node pfx big ch).WF P (pathOf C) ∧ (∀ x, (T.node node pfx big ch).cover x ≤ t.cover x) := by
  have h := At_plug C (.node node pfx big ch)
  rw [← hat.tree] at h
  refine ⟨h.inBlocks hcore.inb, h.repr hcore.repr, ?_, h.cover_le⟩
  have := h.wf hcore.wf
  simpa using this

/-- New memory does not belong to the tree. -/
theorem new_uncovered {P st t} {N0 N : Nat → Nat} (h : CoreN P st t (fun x => N0 x + N x)) {x : Nat} (hx : 0 < N x) : t.cover x = 0 := by
  have := h.sep x
  omega

/-- The kinds that replace a node by a new subtree. -/
theorem replace_pub {P st t C node parent nodePtr raw pfx big ch t1 w} {N0 N D : Nat → Nat} {L : List Nat}
    (hcore : CoreN P st t (fun x => N0 x + N x))
    (hat : NodeAt t C node parent nodePtr raw pfx big ch)
    (hL : ∀ f, C.getLast? = some f → f.addr ∈ L) (hne : t1.isEmpty = false)
    (h1r : t1.Repr st.mem) (h1w : t1.WF P (pathOf C)) (h1b : t1.InBlocks st.baNext)
    (hcov : ∀ x, t1.cover x + D x ≤ (T.node node pfx big ch).cover x + N x) (hD : D 0 = 0)
    (hseg : ∀ x, seg node (nodeSize pfx big ch) x ≤ D x)
    (hstab : Stable (.node node pfx big ch) t1 (fun n => n ∈ L)) (hw : w = holeWord C t1)
    (hk : ∀ c, KeepAt (pfx ++ [c]) (ch c) t1)
    (hk' : (∀ x, 0 < N x → (T.node node pfx big ch).cover x = 0) → Keep t1 (.node node pfx big ch)) :
    PubEff P st (st.store nodePtr w) t (plug C t1) (fun x => N0 x + N x) (fun x => N0 x + D x) N L := by
  have hcv := (hat.core hcore).2.2.2
  have hkeep : Keep (.node node pfx big ch) t1 := by
    refine KeepAt.node ?_ (by simpa using hk)
    intro x h1 h2
    have := hcov x
    have := hseg x
    have := hcore.sep x
    have := hcv x
    have h3 : seg node (nodeSize pfx big ch) x = 1 := by unfold seg; rw [if_pos ⟨h1, h2⟩]
    omega
  have hkeep' := hk' fun x hx => by
    have := new_uncovered hcore hx
    have := hcv x
    omega
  have htree := hat.tree
  subst htree
  rw [hat.ptr, hw]
  refine pub_intro hcore hat.norm (fun _ _ => .inr rfl) (fun _ _ => .inr hne) h1r h1w h1b hcov hD ?_ hkeep hkeep'
  exact Stable_plug (fun _ _ => .inr hne) hL hstab

/-- The replaced node can be recycled. -/
theorem NodeAt.pos {P st t C node parent nodePtr raw pfx big ch N0 w slots} (hcore : CoreN P st t N0)
    (hat : NodeAt t C node parent nodePtr raw pfx big ch)
    (hslots : slots = nodeSize pfx big ch) : NewPos (st.store nodePtr w) node slots := by
  obtain ⟨hin, _, _, _⟩ := hat.core hcore
  obtain ⟨f1, f2, f3, f4, f5, f6, f7, f8, f9⟩ := store_fields st nodePtr w
  exact ⟨hin.1.1, by rw [f6]; exact hin.1.2.1, by rw [hslots]; exact hin.1.2.2⟩

/-- The kinds that change a child slot in place, under the locks of the node and its parent. -/
theorem inplace_pub {P st t C node parent nodePtr raw pfx big ch k t1} {N0 N : Nat → Nat} {L : List Nat}
    (hcore : CoreN P st t (fun x => N0 x + N x))
    (hat : NodeAt t C node parent nodePtr raw pfx big ch) (hL : node ∈ L)
    (hne : big = true ∨ t1.isEmpty = false)
    (hk : big = true ∨ (ch k).isEmpty = false) (hkn : (ch k).isNode = false)
    (h1r : t1.Repr st.mem) (h1w : t1.WF P (pathOf C ++ pfx ++ [k])) (h1b : t1.InBlocks st.baNext)
    (hcov : ∀ x, t1.cover x ≤ N x) :
    PubEff P st (st.store (.slot (childSlot node pfx big ch k)) (wordOf k t1)) t
      (plug (C ++ [⟨node, pfx, big, ch, k⟩]) t1) (fun x => N0 x + N x) N0 N L := by
  have hp : holePtr (C ++ [⟨node, pfx, big, ch, k⟩]) = .slot (childSlot node pfx big ch k) := by simp [holePtr]
  have hw : holeWord (C ++ [⟨node, pfx, big, ch, k⟩]) t1 = wordOf k t1 := by simp [holeWord]
  rw [← hp, ← hw]
  have hn : Norm (C ++ [⟨node, pfx, big, ch, k⟩]) (ch k) := by
    intro f hf
    have : (⟨node, pfx, big, ch, k⟩ : Frame) = f := by simpa using hf
    subst this
    rfl
  have htree : t = plug (C ++ [⟨node, pfx, big, ch, k⟩]) (ch k) := by rw [plug_last hn]; exact hat.tree
  have hlast : ∀ f, (C ++ [⟨node, pfx, big, ch, k⟩] : Ctx).getLast? = some f → f = ⟨node, pfx, big, ch, k⟩ := by
    intro f hf
    exact (by simpa using hf : (⟨node, pfx, big, ch, k⟩ : Frame) = f).symm
  have hcp : Compat (C ++ [⟨node, pfx, big, ch, k⟩]) (ch k) t1 := by
    intro f hf
    rw [hlast f hf]
    rcases hk with h | h
    · exact .inl h
    · rcases hne with h' | h'
      · exact .inl h'
      · exact .inr (by rw [h, h'])
  have hcv0 : ∀ x, (ch k).cover x = 0 := by
    intro x
    cases hc : ch k with
    | empty => rfl
    | leaf => rfl
    | node => simp [hc] at hkn
  rw [htree] at hcore ⊢
  refine pub_intro (D := fun _ => 0) hcore hn ?_ hcp h1r ?_ h1b ?_ rfl ?_ (.of_not_node hkn) (.uncovered hcv0)
  · intro f hf; rw [hlast f hf]; exact hk
  · simpa [pathOf] using h1w
  · intro x
    have := hcov x
    rw [Nat.add_zero]
    exact Nat.le_trans this (Nat.le_add_left _ _)
  · apply Stable_plug hcp
    · intro f hf; rw [hlast f hf]; exact hL
    · exact Stable_of_not_node hkn

/-- Building new nodes leaves the tree as it is. -/
theorem build_pub {P a st s1 t} {N0 N : Nat → Nat} {L : List Nat} (hcore : CoreN P st t N0) (ha : a < st.nalloc)
    (heff : AllocEff a st s1 N0 (fun x => N0 x + N x)) : PubEff P st s1 t t N0 (fun x => N0 x + N x) (fun _ => 0) L :=
  ⟨heff.core hcore, heff.locks, heff.rootLock, heff.epoch, heff.resv, heff.nalloc,
    heff.baNext, heff.nblocks, heff.total ha, heff.mono, fun x h1 h2 => by omega, fun x h _ => heff.mem x h, .refl _ _,
    .refl _, .refl _⟩

/-- Leaving the tree as it is (a failed compare-and-swap): the memory built is lost. -/
theorem keep_pub {P st t} {N N' Q : Nat → Nat} {L : List Nat} (hcore : CoreN P st t N) (h : ∀ x, N' x ≤ N x) :
    PubEff P st st t t N N' Q L :=
  { core := hcore.drop h
    locks := rfl
    rootLock := rfl
    epoch := rfl
    resv := rfl
    nalloc := rfl
    baNext := Nat.le_refl _
    nblocks := Nat.le_refl _
    total := rfl
    free := fun _ _ => Nat.le_refl _
    new := fun x h1 h2 => by omega
    mem := fun _ _ _ => rfl
    stable := .refl _ _
    keep := .refl _
    keep' := .refl _ }

/-- The kinds that replace the root while it is empty or a leaf. -/
theorem root_pub {P st t t1} {N0 N : Nat → Nat} (hcore : CoreN P st t (fun x => N0 x + N x)) (hn : t.isNode = false)
    (h1r : t1.Repr st.mem) (h1w : t1.WF P [])
    (h1b : t1.InBlocks st.baNext) (hcov : ∀ x, t1.cover x ≤ N x) :
    PubEff P st (st.store .root (rootWord t1)) t t1 (fun x => N0 x + N x) N0 N [] := by
  have hcv0 : ∀ x, t.cover x = 0 := by
    intro x
    cases t with
    | empty => rfl
    | leaf => rfl
    | node => simp at hn
  refine pub_intro (C := []) (D := fun _ => 0) hcore ?_ ?_ ?_ h1r h1w h1b ?_ rfl ?_ (.of_not_node hn) (.uncovered hcv0)
  · intro f hf; simp at hf
  · intro f hf; simp at hf
  · intro f hf; simp at hf
  · intro x
    have := hcov x
    rw [Nat.add_zero]
    exact Nat.le_trans this (Nat.le_add_left _ _)
  · exact Stable_of_not_node hn

/-! ## No slot is lost -/

/-- Replacing a subtree: what is built or was in the old subtree is in the new one, or set free. -/
theorem plug_kept {C : Ctx} {t0 t1 : T} {N D : Nat → Nat} (hc : Compat C t0 t1) (h : ∀ x, t0.cover x + N x ≤ t1.cover x + D x) (x : Nat) :
    (plug C t0).cover x + N x ≤ (plug C t1).cover x + D x := by
  have := cover_plug hc x
  have := h x
  omega

theorem replace_kept {t C node parent nodePtr raw pfx big ch t1} {N D : Nat → Nat}
    (hat : NodeAt t C node parent nodePtr raw pfx big ch) (hne : t1.isEmpty = false)
    (h : ∀ x, (T.node node pfx big ch).cover x + N x ≤ t1.cover x + D x) (x : Nat) : t.cover x + N x ≤ (plug C t1).cover x + D x := by
  rw [hat.tree]
  exact plug_kept (fun _ _ => .inr hne) h x

theorem inplace_kept {t : T} {C : Ctx} {node : Nat} {pfx : List UInt8} {big : Bool} {ch : UInt8 → T} {k : UInt8} {t0 t1 : T} {N : Nat → Nat}
    (ht : t = plug (C ++ [⟨node, pfx, big, ch, k⟩]) t0)
    (hc : big = true ∨ t1.isEmpty = t0.isEmpty) (h : ∀ x, t0.cover x + N x ≤ t1.cover x) (x : Nat) :
    t.cover x + N x ≤ (plug (C ++ [⟨node, pfx, big, ch, k⟩]) t1).cover x := by
  rw [ht]
  refine plug_kept (D := fun _ => 0) ?_ h x
  intro f hf
  have : (⟨node, pfx, big, ch, k⟩ : Frame) = f := by simpa using hf
  subst this
  exact hc

/-! ## Nodes built, but not yet published -/

/-- The memory of the new nodes. -/
def Commit.priv (cm : Commit) (x : Nat) : Nat := (cm.nodes.map fun ns => seg ns.1 ns.2 x).sum

/-- A new node in memory. -/
structure Made (st : St) (n : Nat) (pfx : List UInt8) (big : Bool) (ch : UInt8 → T) : Prop where
  mem : NodeMem st.mem n pfx big ch
  pos : NewPos st n (nodeSize pfx big ch)

theorem Made.of {st : St} {n pfx big ch} (h1 : (T.node n pfx big ch).Repr st.mem) (h2 : (T.node n pfx big ch).InBlocks st.baNext) :
    Made st n pfx big ch := ⟨h1.1, h2.1.1, h2.1.2.1, h2.1.2.2⟩

/-- The new node refers to what is in the tree. -/
theorem Made.repr {st : St} {n pfx big ch} (h : Made st n pfx big ch) (hc : ∀ c, (ch c).Repr st.mem ∧ (ch c).InBlocks st.baNext) :
    (T.node n pfx big ch).Repr st.mem ∧ (T.node n pfx big ch).InBlocks st.baNext :=
  ⟨⟨h.mem, fun c => (hc c).1⟩, ⟨h.pos.pos, h.pos.blk, h.pos.fit⟩, fun c => (hc c).2⟩

/-- Only the words of the children matter. -/
theorem Made.words {st : St} {n pfx big} {ch ch' : UInt8 → T} (h : Made st n pfx big ch) (hw : ∀ c, wordOf c (ch c) = wordOf c (ch' c))
    (he : ∀ c, (ch c).isEmpty = (ch' c).isEmpty) : Made st n pfx big ch' := by
  have hp : present ch = present ch' := by funext c; simp [present, he]
  have hc : cnt big ch = cnt big ch' := by unfold cnt; rw [hp]
  have hs : ∀ c, childSlot n pfx big ch c = childSlot n pfx big ch' c := by
    intro c
    unfold childSlot idx
    rw [hp]
  refine ⟨⟨h.mem.pre, fun c hb => ?_⟩, ?_⟩
  · rw [← hs, ← hw]
    exact h.mem.kid c (by rw [he]; exact hb)
  · have := h.pos
    unfold nodeSize at this ⊢
    rwa [hc] at this

/-- The node that takes the place of the leaf `lk`, when `key` with the same path `p` is added. -/
def Halves (st : St) (p key : Key) (value : Word) (lk : Key) (lv : Word) (c : Key) (n : Nat) : Prop :=
  ∃ ka kb r s, key = p ++ c ++ ka :: r ∧ lk = p ++ c ++ kb :: s ∧ ka ≠ kb ∧
    Made st n c false (ch2 ka (.leaf key (trunc55 value)) kb (.leaf lk lv))

end Radix
