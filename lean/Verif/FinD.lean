import Verif.FinU
/-!
# `DeleteOperation.Finalize`: building and publishing
-/
namespace Radix
open T

/-- What holds of a prepared delete of `key` as long as it holds its locks (`deleteLeaf256` holds none). -/
def DFact (t : T) (op : DelOp) (key : Key) : Prop :=
  match op.kind with
  | .deleteRoot => ∃ lk lv, t = .leaf lk lv ∧ op.value = trunc55 lv
  | .replaceNodeWithLeaf => ∃ C pfx k k2 lk lv lk2 lv2,
      NodeAt t C op.node op.parent op.nodePtr op.raw pfx false (ch2 k (.leaf lk lv) k2 (.leaf lk2 lv2)) ∧ k ≠ k2 ∧
      op.value = trunc55 lv ∧ op.count = 2 ∧ op.prefixSlots = prefixSlots pfx.length ∧
      (lk = key → op.newLeaf = holeWord C (.leaf lk2 lv2))
  | .replaceNodeWithNode => ∃ C pfx k k2 lk lv pfx2 big2 kids,
      NodeAt t C op.node op.parent op.nodePtr op.raw pfx false (ch2 k (.leaf lk lv) k2 (.node op.child pfx2 big2 kids)) ∧
      k ≠ k2 ∧ op.value = trunc55 lv ∧ op.count = cnt big2 kids ∧ op.prefixSlots = prefixSlots pfx2.length ∧
      op.pfx = pfx ++ k2 :: pfx2 ∧ op.data = ⟨op.child, blockSlots - op.child % blockSlots⟩
  | .deleteLeaf => ∃ C pfx ch k lk lv, NodeAt t C op.node op.parent op.nodePtr op.raw pfx false ch ∧ ch k = .leaf lk lv ∧
      3 ≤ cntOf (present ch) ∧ op.value = trunc55 lv ∧ op.count = cntOf (present ch) ∧ op.prefixLen = pfx.length ∧
      op.prefixSlots = prefixSlots pfx.length ∧ op.leafPosition = rankOf (present ch) k ∧
      op.data = ⟨op.node, blockSlots - op.node % blockSlots⟩
  | .deleteLeaf256 => op.value = leafValue op.raw ∧ isLeaf op.raw = true
  | .notFound => False

/-- The locks a prepared delete holds. -/
def DelOp.unl (op : DelOp) : Unlock :=
  match op.kind with
  | .deleteRoot => .root
  | .replaceNodeWithLeaf | .deleteLeaf => .two op.node op.parent
  | .replaceNodeWithNode => .three op.child op.node op.parent
  | _ => .none

/-- `DFact` for the node of the tree that the operation refers to (`big2`, `kids`: its child that is merged into it). -/
def DFactAt (t : T) (op : DelOp) (key : Key) (C : Ctx) (pfx : List UInt8) (ch : UInt8 → T) (big2 : Bool) (kids : UInt8 → T) : Prop :=
  match op.kind with
  | .deleteRoot => ∃ lk lv, t = .leaf lk lv ∧ op.value = trunc55 lv
  | .replaceNodeWithLeaf => ∃ k k2 lk lv lk2 lv2, ch = ch2 k (.leaf lk lv) k2 (.leaf lk2 lv2) ∧
      NodeAt t C op.node op.parent op.nodePtr op.raw pfx false (ch2 k (.leaf lk lv) k2 (.leaf lk2 lv2)) ∧ k ≠ k2 ∧
      op.value = trunc55 lv ∧ op.count = 2 ∧ op.prefixSlots = prefixSlots pfx.length ∧
      (lk = key → op.newLeaf = holeWord C (.leaf lk2 lv2))
  | .replaceNodeWithNode => ∃ k k2 lk lv pfx2, ch = ch2 k (.leaf lk lv) k2 (.node op.child pfx2 big2 kids) ∧
      NodeAt t C op.node op.parent op.nodePtr op.raw pfx false (ch2 k (.leaf lk lv) k2 (.node op.child pfx2 big2 kids)) ∧
      k ≠ k2 ∧ op.value = trunc55 lv ∧ op.count = cnt big2 kids ∧ op.prefixSlots = prefixSlots pfx2.length ∧
      op.pfx = pfx ++ k2 :: pfx2 ∧ op.data = ⟨op.child, blockSlots - op.child % blockSlots⟩
  | .deleteLeaf => ∃ k lk lv, NodeAt t C op.node op.parent op.nodePtr op.raw pfx false ch ∧ ch k = .leaf lk lv ∧
      3 ≤ cntOf (present ch) ∧ op.value = trunc55 lv ∧ op.count = cntOf (present ch) ∧ op.prefixLen = pfx.length ∧
      op.prefixSlots = prefixSlots pfx.length ∧ op.leafPosition = rankOf (present ch) k ∧
      op.data = ⟨op.node, blockSlots - op.node % blockSlots⟩
  | .deleteLeaf256 => op.value = leafValue op.raw ∧ isLeaf op.raw = true
  | .notFound => False

theorem DFactAt.fact {t op key C pfx ch big2 kids} (h : DFactAt t op key C pfx ch big2 kids) : DFact t op key := by
  unfold DFactAt at h
  unfold DFact
  split at h
  · exact h
  · obtain ⟨k, k2, lk, lv, lk2, lv2, _, h⟩ := h
    exact ⟨C, pfx, k, k2, lk, lv, lk2, lv2, h⟩
  · obtain ⟨k, k2, lk, lv, pfx2, _, h⟩ := h
    exact ⟨C, pfx, k, k2, lk, lv, pfx2, big2, kids, h⟩
  · obtain ⟨k, lk, lv, h⟩ := h
    exact ⟨C, pfx, ch, k, lk, lv, h⟩
  · exact h
  · exact h

/-- The change that a prepared delete is about to publish, and the node built for it. -/
def DBlt (st : St) (op : DelOp) (cm : Commit) (pfx : List UInt8) (ch : UInt8 → T) (big2 : Bool) (kids : UInt8 → T) : Prop :=
  match op.kind with
  | .deleteRoot => cm = { ptr := .root, new := 0, ok := { unl := .root, items := -1 } }
  | .replaceNodeWithLeaf => cm =
      { ptr := op.nodePtr, new := op.newLeaf,
        ok := { unl := .two op.node op.parent, free := some (op.node, op.count + op.prefixSlots), items := -1 } }
  | .replaceNodeWithNode => ∃ n, Made st n op.pfx big2 kids ∧ cm =
      { ptr := op.nodePtr, new := buildNode (keyByte op.raw) n op.count op.pfx.length,
        nodes := [(n, op.count + prefixSlots op.pfx.length)],
        ok := { unl := .three op.child op.node op.parent, free := some (op.child, op.count + op.prefixSlots), items := -1 } }
  | .deleteLeaf => ∃ n k, present ch k = true ∧ op.leafPosition = rankOf (present ch) k ∧ Made st n pfx false (upd ch k .empty) ∧ cm =
      { ptr := op.nodePtr, new := buildNode (keyByte op.raw) n (op.count - 1) pfx.length,
        nodes := [(n, op.count - 1 + prefixSlots pfx.length)],
        ok := { unl := .two op.node op.parent, free := some (op.node, op.count + op.prefixSlots), items := -1 } }
  | .deleteLeaf256 => cm = { ptr := op.leafPtr, exp := some op.raw, new := 0, ok := { items := -1 } }
  | .notFound => False

/-- The outcomes of building the new node of a delete. -/
def DMade (a : Nat) (st : St) (N : Nat → Nat) (op : DelOp) (pfx : List UInt8) (ch : UInt8 → T) (big2 : Bool) (kids : UInt8 → T)
    (r : Res (Commit × St)) : Prop :=
  r = .error .noBlocks ∨
  ∃ cm st', r = .ok (cm, st') ∧ AllocEff a st st' N (fun x => N x + cm.priv x) ∧ DBlt st' op cm pfx ch big2 kids

theorem DMade.none {P a st t N op pfx ch big2 kids} {cm : Commit} {r : Res (Commit × St)} (hcore : CoreN P st t N)
    (hr : r = .ok (cm, st)) (hn : cm.nodes = []) (hb : DBlt st op cm pfx ch big2 kids) : DMade a st N op pfx ch big2 kids r := by
  refine .inr ⟨cm, st, hr, ?_, hb⟩
  rw [priv_nil hn]
  exact AllocEff.refl (N := fun x => N x + 0) hcore.ok hcore.n0

/-- The outcomes of publishing the change of a delete. -/
def DOut (P : Key → Word → Prop) (st : St) (t : T) (N : Nat → Nat) (op : DelOp) (key : Key) (Q : Nat → Nat)
    (r : Bool × Tail × St) : Prop :=
  (∃ st' t' tl, r = (true, tl, st') ∧ PubEff P st st' t t' (fun x => N x + Q x) (fun x => N x + tl.seg x) Q op.unl.list ∧
    tl.unl = op.unl ∧ (∀ n slots, tl.free = some (n, slots) → NewPos st' n slots) ∧
    Del1 t t' key ∧ tl.items = -1 ∧ ((∃ v, t.Has key v) ∧ KeepBig t t' ∧ KeepBig t' t) ∧
    (op.kind ≠ .replaceNodeWithNode → ∀ x, t.cover x + Q x ≤ t'.cover x + tl.seg x)) ∨
  ((op.kind = .deleteLeaf256 ∧ st.load op.leafPtr ≠ op.raw) ∧ r = (false, {}, st))

theorem DOut.ok {P st t key op r st' t' L N N' Q} {tl : Tail}
    (hkp : op.kind ≠ .replaceNodeWithNode → ∀ x, t.cover x + Q x ≤ t'.cover x + tl.seg x) (hpub : PubEff P st st' t t' (fun x => N x + Q x) N' Q L)
    (hL : op.unl.list = L)
    (hu : tl.unl = op.unl) (hN : ∀ x, N x + tl.seg x ≤ N' x)
    (hp : ∀ n slots, tl.free = some (n, slots) → NewPos st' n slots)
    (hr : r = (true, tl, st')) (hup : Del1 t t' key) (hi : tl.items = -1) (hd : (∃ v, t.Has key v) ∧ KeepBig t t' ∧ KeepBig t' t) :
    DOut P st t N op key Q r := by
  subst hL
  refine .inl ⟨st', t', tl, hr, ?_, hu, hp, hup, hi, hd, hkp⟩
  exact { hpub with core := hpub.core.drop hN }

theorem path_prefix {P C t0 k v} (h : (plug C t0).WF P []) (hk : t0.Has k v) : pathOf C <+: k := by
  have := (At_plug C t0).wf h
  have := (this.has hk).1
  simpa using this

section
variable {P : Key → Word → Prop} {a : Nat} {st : St} {t : T} {op : DelOp} {key : Key} {N0 : Nat → Nat}
  {C : Ctx} {pfx : List UInt8} {ch : UInt8 → T} {big2 : Bool} {kids : UInt8 → T}

section
variable (hcore : CoreN P st t N0) (ha : a < st.nalloc) (hf : DFactAt t op key C pfx ch big2 kids)
include hcore ha hf

theorem bldD_shrink (hk : op.kind = .deleteLeaf) : DMade a st N0 op pfx ch big2 kids (buildD st a op) := by
  unfold DFactAt at hf
  rw [hk] at hf
  obtain ⟨k, lk, lv, hat, hch, hcnt, hv, hcount, hplen, hslots, hpos, hdata⟩ := hf
  obtain ⟨hinb, hrepr, hwfn, hcov⟩ := hat.core hcore
  have hpl : pfx.length < maxKeyLen := by
    have := hwfn.1.1
    rw [List.length_append] at this
    omega
  rcases shrink_spec (k := k) hcore ha hpl hcnt hinb hrepr (fun x h => by have := hcov x; omega) (by rw [hch]; rfl) with
    h | ⟨n, st1, m, h1, h2, h3, h4, h5⟩
  · left
    unfold buildD
    rw [hk]
    simp only
    rw [hcount, hplen, h]
    rfl
  have hcode : buildD st a op = .ok (
      { ptr := op.nodePtr, new := buildNode (keyByte op.raw) n (op.count - 1) pfx.length,
        nodes := [(n, op.count - 1 + prefixSlots pfx.length)],
        ok := { unl := .two op.node op.parent, free := some (op.node, op.count + op.prefixSlots), items := -1 } },
      { st1 with mem := m }) := by
    unfold buildD
    rw [hk]
    simp only
    rw [hplen, hpos, hdata, hslots, hcount, h1]
    revert h2
    simp only [bind, Except.bind, pure, Except.pure]
    cases Slice.words st1.mem ⟨op.node, blockSlots - op.node % blockSlots⟩
          (cntOf (present ch) + prefixSlots pfx.length) with
    | error e => intro h; cases h
    | ok ws0 =>
      simp only
      cases Slice.words st1.mem ⟨op.node, blockSlots - op.node % blockSlots⟩
            (prefixSlots pfx.length + rankOf (present ch) k) with
      | error e => intro h; cases h
      | ok ws1 =>
        simp only
        cases (⟨op.node, blockSlots - op.node % blockSlots⟩ : Slice).drop
            (prefixSlots pfx.length + rankOf (present ch) k + 1) with
        | error e => intro h; cases h
        | ok src2 =>
          simp only
          cases src2.words (Slice.copy st1.mem ⟨n, blockSlots - n % blockSlots⟩ ws1) (cntOf (present ch) + prefixSlots pfx.length -
            (prefixSlots pfx.length + rankOf (present ch) k + 1)) with
          | error e => intro h; cases h
          | ok ws2 =>
            simp only
            cases (⟨n, blockSlots - n % blockSlots⟩ : Slice).drop
                (prefixSlots pfx.length + rankOf (present ch) k) with
            | error e => intro h; cases h
            | ok dst2 =>
              simp only
              intro h
              cases h
              rfl
  have hce := cntOf_upd_erase (ch := ch) (k := k) (by rw [hch]; rfl)
  have hsz : nodeSize pfx false (upd ch k .empty) = op.count - 1 + prefixSlots pfx.length := by
    have : cnt false (upd ch k .empty) = cntOf (present ch) - 1 := by
      show cntOf (present (upd ch k .empty)) = _
      omega
    rw [nodeSize, this, hcount]
  refine .inr ⟨_, _, hcode, ?_, ?_⟩
  · rw [priv_one n _ rfl, ← hsz]; exact h3
  · unfold DBlt
    rw [hk]
    exact ⟨n, k, by simp [present, hch], hpos, .of h4 h5, rfl⟩

theorem bldD_node (hk : op.kind = .replaceNodeWithNode) : DMade a st N0 op pfx ch big2 kids (buildD st a op) := by
  unfold DFactAt at hf
  rw [hk] at hf
  obtain ⟨k, k2, lk, lv, pfx2, rfl, hat, hne, hv, hcount, hslots, hpfx, hdata⟩ := hf
  obtain ⟨hinb, hrepr, hwfn, hcov⟩ := hat.core hcore
  have hwk2 := hwfn.2.2 k2
  rw [ch2_snd] at hwk2
  have hinb2 := hinb.2 k2
  rw [ch2_snd] at hinb2
  have hrepr2 := hrepr.2 k2
  rw [ch2_snd] at hrepr2
  have hcov2 : ∀ x, (T.node op.child pfx2 big2 kids).cover x ≤ t.cover x := by
    intro x
    have h1 := cover_child_le (a := op.node) (pfx := pfx) (big := false)
      (ch := ch2 k (.leaf lk lv) k2 (.node op.child pfx2 big2 kids)) k2 x
    rw [ch2_snd] at h1
    exact Nat.le_trans h1 (hcov x)
  have hpl : op.pfx.length < maxKeyLen := by
    rw [hpfx]
    have := hwk2.1.1
    simp only [List.length_append, List.length_cons, List.length_nil] at this ⊢
    omega
  rcases clone_spec (pfx' := op.pfx) hcore ha hpl (cnt_ge hwk2) hinb2 hrepr2
    (fun x h => by have := hcov2 x; omega) with h | ⟨n, st1, m, ws, h1, h2, h3, h4, h5, h6, h7⟩
  · left
    unfold buildD
    rw [hk]
    simp only
    rw [hcount, h]
    rfl
  have hcode : buildD st a op = .ok (
      { ptr := op.nodePtr, new := buildNode (keyByte op.raw) n op.count op.pfx.length,
        nodes := [(n, op.count + prefixSlots op.pfx.length)],
        ok := { unl := .three op.child op.node op.parent, free := some (op.child, op.count + op.prefixSlots), items := -1 } },
      { st1 with mem := m }) := by
    unfold buildD
    rw [hk]
    simp only
    rw [hcount, h1]
    simp only [bind, Except.bind]
    rw [hdata, hslots, h2]
    simp only
    rw [h3]
    simp only [h4]
    rfl
  refine .inr ⟨_, _, hcode, ?_, ?_⟩
  · rw [priv_one n _ rfl, hcount]; exact h5
  · unfold DBlt
    rw [hk]
    exact ⟨n, .of h6 h7, rfl⟩

/-- Building the new node of a prepared delete panics only if the address space is exhausted. -/
theorem bldD_spec : DMade a st N0 op pfx ch big2 kids (buildD st a op) := by
  cases hk : op.kind with
  | deleteRoot => exact .none hcore (by unfold buildD; rw [hk]; rfl) rfl (by unfold DBlt; rw [hk])
  | replaceNodeWithLeaf => exact .none hcore (by unfold buildD; rw [hk]; rfl) rfl (by unfold DBlt; rw [hk])
  | replaceNodeWithNode => exact bldD_node hcore ha hf hk
  | deleteLeaf => exact bldD_shrink hcore ha hf hk
  | deleteLeaf256 => exact .none hcore (by unfold buildD; rw [hk]; rfl) rfl (by unfold DBlt; rw [hk])
  | notFound =>
    unfold DFactAt at hf
    rw [hk] at hf
    exact hf.elim

end

section
variable {cm : Commit} (hP : KeysOK P) (hcore : CoreN P st t (fun x => N0 x + cm.priv x)) (hf : DFactAt t op key C pfx ch big2 kids)
  (hm : ∀ lk lv, P lk lv → trunc55 lv = op.value → lk = key) (hb : DBlt st op cm pfx ch big2 kids)
include hP hcore hf hm hb

omit hP in
theorem cmtD_root (hk : op.kind = .deleteRoot) : DOut P st t N0 op key cm.priv (st.commit cm) := by
  unfold DFactAt at hf
  unfold DBlt at hb
  rw [hk] at hf hb
  obtain ⟨lk, lv, rfl, hv⟩ := hf
  have hl : P lk lv := hcore.wf.2
  obtain rfl := hm lk lv hl hv.symm
  have hfin := root_pub (t1 := .empty) hcore rfl
    trivial trivial trivial (fun x => Nat.zero_le _)
  refine DOut.ok (tl := { unl := .root, items := -1 }) (fun _ x => by rw [hb]; exact Nat.le_refl _) hfin (by simp [DelOp.unl, hk, Unlock.list])
    (by simp [DelOp.unl, hk]) (fun _ => Nat.le_refl _) (by simp) ?_ ?_ rfl ⟨⟨lv, rfl, rfl⟩, .of_not_node rfl, .of_not_node rfl⟩
  · rw [hb, commit_store]
    rfl
  · intro k v
    simp only [T.Has, false_iff]
    rintro ⟨h1, rfl, _⟩
    exact h1 rfl

theorem cmtD_leaf (hk : op.kind = .replaceNodeWithLeaf) : DOut P st t N0 op key cm.priv (st.commit cm) := by
  unfold DFactAt at hf
  unfold DBlt at hb
  rw [hk] at hf hb
  obtain ⟨k, k2, lk, lv, lk2, lv2, rfl, hat, hne, hv, hcount, hslots, hnew⟩ := hf
  obtain ⟨hinb, hrepr, hwfn, hcov⟩ := hat.core hcore
  have hwk := hwfn.2.2 k
  have hwk2 := hwfn.2.2 k2
  rw [ch2_fst hne] at hwk
  rw [ch2_snd] at hwk2
  obtain rfl := hm lk lv hwk.2 hv.symm
  have hwf := hcore.wf
  have htree := hat.tree
  rw [htree] at hwf
  have hkey : (T.node op.node pfx false (ch2 k (.leaf lk lv) k2 (.leaf lk2 lv2))).Has lk lv :=
    ⟨k, by rw [ch2_fst hne]; exact ⟨rfl, rfl⟩⟩
  have hpath := path_prefix hwf hkey
  have hpath2 : pathOf C <+: lk2 := path_prefix hwf (k := lk2) (v := lv2) ⟨k2, by rw [ch2_snd]; exact ⟨rfl, rfl⟩⟩
  have hsz : nodeSize pfx false (ch2 k (.leaf lk lv) k2 (.leaf lk2 lv2)) = op.count + op.prefixSlots := by
    rw [nodeSize_ch2 rfl rfl hne, hcount, hslots]
  have hkl : lk2 ≠ lk := by
    rintro rfl
    exact hne (prefix_snoc_inj hwk.1 hwk2.1)
  have e2 := replace_pub (t1 := .leaf lk2 lv2) (D := seg op.node (op.count + op.prefixSlots)) hcore hat
    (fun f hf => holeParent_mem hcore hat hf) rfl trivial ⟨hpath2, hwk2.2⟩ trivial
    (fun x => by rw [cover_node_eq, hsz]; show 0 + _ ≤ _; omega) (seg_zero hinb.1.1)
    (fun x => by rw [hsz]; exact Nat.le_refl _)
    (Stable_node (mem_lockList2 _ _) fun c hc => by
      exfalso
      have := ch2_forall (Q := fun _ t => t.isNode = false) (ta := .leaf lk lv) (tb := .leaf lk2 lv2) hne rfl rfl (fun _ => rfl) c
      simp [this] at hc)
    (hnew rfl)
    (fun c => .of_not_node (ch2_forall (Q := fun _ t => t.isNode = false) (ta := .leaf lk lv) (tb := .leaf lk2 lv2) hne rfl rfl
      (fun _ => rfl) c))
    (fun _ => .of_not_node rfl)
  refine DOut.ok (tl := { unl := .two op.node op.parent, free := some (op.node, op.count + op.prefixSlots), items := -1 })
    (fun _ => replace_kept hat rfl fun x => by
      rw [hb, cover_node_eq, hsz, sumB_ch2 hne]
      simp [T.cover, Commit.priv, Tail.seg]) e2
    (by simp [DelOp.unl, hk, Unlock.list]) (by simp [DelOp.unl, hk]) (fun x => Nat.le_refl _) ?_ ?_ ?_ rfl
    ⟨⟨lv, by rw [htree, has_plug]; exact .inr hkey⟩, htree ▸ (KeepBig.leaves rfl rfl hne).plug _,
      htree ▸ KeepBig.plug (.of_not_node rfl) _⟩
  · intro n s h
    simp only [Option.some.injEq, Prod.mk.injEq] at h
    rw [← h.1, ← h.2]
    exact hat.pos hcore hsz.symm
  · rw [hb, commit_store]
  · rw [htree]
    apply Del1.plug hwf hpath
    intro k' v'
    have e : (T.node op.node pfx false (ch2 k (.leaf lk lv) k2 (.leaf lk2 lv2))).Has k' v' ↔
        (T.leaf lk lv).Has k' v' ∨ (T.leaf lk2 lv2).Has k' v' :=
      ch2_exists (Q := fun _ t => t.Has k' v') hne (fun _ h => h)
    rw [e]
    simp only [T.Has]
    constructor
    · rintro ⟨rfl, rfl⟩; exact ⟨hkl, .inr ⟨rfl, rfl⟩⟩
    · rintro ⟨h1, ⟨rfl, _⟩ | h2⟩
      · exact absurd rfl h1
      · exact h2

omit hP in
theorem cmtD_shrink (hk : op.kind = .deleteLeaf) : DOut P st t N0 op key cm.priv (st.commit cm) := by
  unfold DFactAt at hf
  unfold DBlt at hb
  rw [hk] at hf hb
  obtain ⟨k, lk, lv, hat, hch, hcnt, hv, hcount, hplen, hslots, hpos, hdata⟩ := hf
  obtain ⟨hinb, hrepr, hwfn, hcov⟩ := hat.core hcore
  have hwk := hwfn.2.2 k
  rw [hch] at hwk
  obtain rfl := hm lk lv hwk.2 hv.symm
  have hwf := hcore.wf
  have htree := hat.tree
  rw [htree] at hwf
  have hkey : (T.node op.node pfx false ch).Has lk lv := ⟨k, by rw [hch]; exact ⟨rfl, rfl⟩⟩
  have hpath := path_prefix hwf hkey
  have hsz : nodeSize pfx false ch = cntOf (present ch) + prefixSlots pfx.length := rfl
  have hcl := hwfn.2.1 rfl
  obtain ⟨n, k', hk1, hk2, hmade, hcm⟩ := hb
  have ek : k' = k := rankOf_inj hk1 (by simp [present, hch]) (hk2.symm.trans hpos)
  rw [ek] at hmade
  obtain ⟨h4, h5⟩ := hmade.repr (by
    intro c
    by_cases hck : c = k
    · subst hck; rw [upd_same]; exact ⟨trivial, trivial⟩
    · rw [upd_of_ne _ _ hck]; exact ⟨hrepr.2 c, hinb.2 c⟩)
  have hce := cntOf_upd_erase (ch := ch) (k := k) (by rw [hch]; rfl)
  have hw : buildNode (keyByte op.raw) n (op.count - 1) pfx.length =
      holeWord C (T.node n pfx false (upd ch k .empty)) := by
    rw [holeWord_node, hat.byte, hcount]
    have : cnt false (upd ch k .empty) = cntOf (present ch) - 1 := by
      show cntOf (present (upd ch k .empty)) = _
      omega
    rw [this]
  have hpr : cm.priv = seg n (nodeSize pfx false (upd ch k .empty)) := by
    apply priv_one
    have : cnt false (upd ch k .empty) = cntOf (present ch) - 1 := by
      show cntOf (present (upd ch k .empty)) = _
      omega
    rw [hcm, nodeSize, this, hcount]
  have hother : ∀ c, c ≠ k → At (T.node n pfx false (upd ch k .empty)) (pfx ++ [c]) (ch c) := by
    intro c hck
    apply At.down
    rw [upd_of_ne _ _ hck]
    exact At.here _
  have hcover : ∀ x, (T.node n pfx false (upd ch k .empty)).cover x + seg op.node (op.count + op.prefixSlots) x =
      (T.node op.node pfx false ch).cover x + cm.priv x := by
    intro x
    have h := sumB_cover_upd ch k .empty x
    rw [hpr, cover_node_eq, cover_node_eq, hsz, hcount, hslots]
    have e1 : T.empty.cover x = 0 := rfl
    have e2 : (ch k).cover x = 0 := by rw [hch]; rfl
    omega
  have e2 := replace_pub (D := seg op.node (op.count + op.prefixSlots)) hcore hat
    (fun f hf => holeParent_mem hcore hat hf) rfl h4
    ⟨hwfn.1, fun _ => by omega, fun c => by
      by_cases hck : c = k
      · subst hck; rw [upd_same]; trivial
      · rw [upd_of_ne _ _ hck]; exact hwfn.2.2 c⟩ h5
    (fun x => Nat.le_of_eq (hcover x)) (seg_zero hinb.1.1)
    (fun x => by rw [hsz, hcount, hslots]; exact Nat.le_refl _)
    (Stable_node (mem_lockList2 _ _) fun c hcn r t _ hat' => by
      have hck : c ≠ k := by rintro rfl; rw [hch] at hcn; simp at hcn
      simpa using (hother c hck).trans hat')
    hw
    (fun c => by
      by_cases hck : c = k
      · rw [hck, hch]; exact .of_not_node rfl
      · exact .sub (hother c hck))
    (fun hn => .node (fun x h1 h2 => hn x (by rw [hpr]; unfold seg; rw [if_pos ⟨h1, h2⟩]; omega)) fun c => by
      by_cases hck : c = k
      · subst hck; rw [upd_same]; exact .of_not_node rfl
      · rw [upd_of_ne _ _ hck]
        exact .sub (by simpa using At.down (a := op.node) (pfx := pfx) (big := false) (At.here (ch c))))
  refine DOut.ok (tl := { unl := .two op.node op.parent, free := some (op.node, op.count + op.prefixSlots), items := -1 })
    (fun _ => replace_kept hat rfl fun x => Nat.le_of_eq (hcover x).symm) e2
    (by simp [DelOp.unl, hk, Unlock.list]) (by simp [DelOp.unl, hk]) (fun x => Nat.le_refl _) ?_ (by rw [hcm, commit_store]) ?_ rfl
    ⟨⟨lv, by rw [htree, has_plug]; exact .inr hkey⟩, htree ▸ (KeepBig.node (fun h => h) (by rw [hch]; rfl)).plug _,
      htree ▸ (KeepBig.unnode (fun h => h) rfl).plug _⟩
  · intro n' s h
    simp only [Option.some.injEq, Prod.mk.injEq] at h
    rw [← h.1, ← h.2]
    exact hat.pos hcore (by rw [hsz, hcount, hslots])
  · rw [htree]
    apply Del1.plug hwf hpath
    intro k' v'
    simp only [T.Has]
    constructor
    · rintro ⟨c, h⟩
      by_cases hck : c = k
      · subst hck; rw [upd_same] at h; exact h.elim
      · rw [upd_of_ne _ _ hck] at h
        refine ⟨?_, c, h⟩
        rintro rfl
        exact hck (prefix_snoc_inj ((hwfn.2.2 c).has h).1 hwk.1)
    · rintro ⟨hh1, c, hh2⟩
      refine ⟨c, ?_⟩
      by_cases hck : c = k
      · rw [hck, hch] at hh2; exact absurd hh2.1.symm hh1
      · rw [upd_of_ne _ _ hck]; exact hh2

omit hP in
theorem cmtD_node (hk : op.kind = .replaceNodeWithNode) : DOut P st t N0 op key cm.priv (st.commit cm) := by
  unfold DFactAt at hf
  unfold DBlt at hb
  rw [hk] at hf hb
  obtain ⟨k, k2, lk, lv, pfx2, rfl, hat, hne, hv, hcount, hslots, hpfx, hdata⟩ := hf
  obtain ⟨hinb, hrepr, hwfn, hcov⟩ := hat.core hcore
  have hwk := hwfn.2.2 k
  have hwk2 := hwfn.2.2 k2
  rw [ch2_fst hne] at hwk
  rw [ch2_snd] at hwk2
  obtain rfl := hm lk lv hwk.2 hv.symm
  have hwf := hcore.wf
  have htree := hat.tree
  rw [htree] at hwf
  have hkey : (T.node op.node pfx false (ch2 k (.leaf lk lv) k2 (.node op.child pfx2 big2 kids))).Has lk lv :=
    ⟨k, by rw [ch2_fst hne]; exact ⟨rfl, rfl⟩⟩
  have hpath := path_prefix hwf hkey
  have hsz : nodeSize pfx false (ch2 k (.leaf lk lv) k2 (.node op.child pfx2 big2 kids)) = 2 + prefixSlots pfx.length := by
    rw [nodeSize_ch2 rfl rfl hne]
  have hinb2 := hinb.2 k2
  rw [ch2_snd] at hinb2
  have hrepr2 := hrepr.2 k2
  rw [ch2_snd] at hrepr2
  have hcov2 : ∀ x, (T.node op.child pfx2 big2 kids).cover x ≤ t.cover x := by
    intro x
    have h1 := cover_child_le (a := op.node) (pfx := pfx) (big := false)
      (ch := ch2 k (.leaf lk lv) k2 (.node op.child pfx2 big2 kids)) k2 x
    rw [ch2_snd] at h1
    exact Nat.le_trans h1 (hcov x)
  have hpl : op.pfx.length < maxKeyLen := by
    rw [hpfx]
    have := hwk2.1.1
    simp only [List.length_append, List.length_cons, List.length_nil] at this ⊢
    omega
  have hsz2 : nodeSize pfx2 big2 kids = cnt big2 kids + prefixSlots pfx2.length := rfl
  obtain ⟨n, hmade, hcm⟩ := hb
  obtain ⟨h6, h7⟩ := hmade.repr (fun c => ⟨hrepr2.2 c, hinb2.2 c⟩)
  have hpr : cm.priv = seg n (nodeSize op.pfx big2 kids) := by
    apply priv_one
    rw [hcm, nodeSize, hcount]
  have hL3 : ∀ f : Frame, C.getLast? = some f → f.addr ∈ lockList3 op.child op.node op.parent := by
    intro f hf
    have := holeParent_mem hcore hat hf
    unfold lockList2 at this
    unfold lockList3
    split at this <;> rename_i hp
    · rw [if_pos hp]; simp only [List.mem_cons, List.not_mem_nil, or_false] at this ⊢; exact .inr this
    · rw [if_neg hp]; simp only [List.mem_cons, List.not_mem_nil, or_false] at this ⊢; exact .inr this
  have hmem3 : op.node ∈ lockList3 op.child op.node op.parent := by unfold lockList3; split <;> simp
  have hmemc : op.child ∈ lockList3 op.child op.node op.parent := by unfold lockList3; split <;> simp
  have hdown : ∀ c, At (T.node n op.pfx big2 kids) (pfx ++ k2 :: (pfx2 ++ [c])) (kids c) := by
    intro c
    have : At (T.node n op.pfx big2 kids) (op.pfx ++ c :: []) (kids c) := .down (.here _)
    rw [hpfx] at this ⊢
    simpa using this
  have hcovD : ∀ x, (T.node n op.pfx big2 kids).cover x +
      (seg op.node (2 + prefixSlots pfx.length) x + seg op.child (op.count + op.prefixSlots) x) ≤
      (T.node op.node pfx false (ch2 k (.leaf lk lv) k2 (.node op.child pfx2 big2 kids))).cover x +
        cm.priv x := by
    intro x
    rw [hpr, cover_node_eq, cover_node_eq op.node, sumB_ch2 hne, hsz, hcount, hslots, cover_node_eq op.child, hsz2]
    have e1 : (T.leaf lk lv).cover x = 0 := rfl
    omega
  have hstab : Stable (T.node op.node pfx false (ch2 k (.leaf lk lv) k2 (.node op.child pfx2 big2 kids)))
      (.node n op.pfx big2 kids) (fun n => n ∈ lockList3 op.child op.node op.parent) := by
    intro q a' pfx' big' ch' hq hna
    rcases hq.inv_node with ⟨rfl, he⟩ | ⟨c, r, rfl, hq'⟩
    · injection he with h1
      subst h1
      exact absurd hmem3 hna
    · by_cases hc2 : c = k2
      · subst hc2
        rw [ch2_snd] at hq'
        rcases hq'.inv_node with ⟨rfl, he⟩ | ⟨c', r', rfl, hq''⟩
        · injection he with h1
          subst h1
          exact absurd hmemc hna
        · refine ⟨ch', ?_, fun _ => .refl _ _⟩
          simpa using (hdown c').trans hq''
      · by_cases hc1 : c = k
        · subst hc1
          rw [ch2_fst hne] at hq'
          exact absurd (hq'.inv_leaf.2) (by simp)
        · rw [ch2_other hc1 hc2] at hq'
          exact absurd (hq'.inv_empty.2) (by simp)
  have e2 := replace_pub (t1 := .node n op.pfx big2 kids) (w := buildNode (keyByte op.raw) n op.count op.pfx.length)
    (D := fun x => seg op.node (2 + prefixSlots pfx.length) x + seg op.child (op.count + op.prefixSlots) x) hcore hat hL3 rfl h6
    ⟨by
      rw [hpfx]
      have := hwk2.1
      simpa using this, hwk2.2.1, fun c => by
      have := hwk2.2.2 c
      rw [hpfx]
      simpa using this⟩ h7
    hcovD (by rw [seg_zero hinb.1.1, seg_zero hinb2.1.1])
    (fun x => by rw [hsz]; omega)
    hstab
    (by rw [holeWord_node, hat.byte, hcount])
    (fun c => by
      refine ch2_forall (Q := fun c u => KeepAt (pfx ++ [c]) u (.node n op.pfx big2 kids)) (ta := .leaf lk lv)
        (tb := .node op.child pfx2 big2 kids) hne (.of_not_node rfl) ?_ (fun _ => .of_not_node rfl) c
      refine .node (fun x h1 h2 => ?_) fun c => .sub ?_
      · have := hcore.sep x
        have := hcovD x
        have := hcov x
        have h3 : seg op.child (op.count + op.prefixSlots) x = 1 := by
          unfold seg; rw [if_pos ⟨h1, by rw [hcount, hslots]; exact h2⟩]
        omega
      · have := hdown c
        simpa using this)
    (fun hn => .node (fun x h1 h2 => hn x (by rw [hpr]; unfold seg; rw [if_pos ⟨h1, h2⟩]; omega)) fun c => by
      refine .sub ?_
      have h1 : At (T.node op.node pfx false (ch2 k (.leaf lk lv) k2 (.node op.child pfx2 big2 kids)))
          (pfx ++ k2 :: (pfx2 ++ c :: [])) (kids c) := .down (by rw [ch2_snd]; exact .down (.here _))
      rw [hpfx]
      simpa using h1)
  refine DOut.ok (tl := { unl := .three op.child op.node op.parent, free := some (op.child, op.count + op.prefixSlots), items := -1 })
    (fun h => absurd hk h) e2
    (by simp [DelOp.unl, hk, Unlock.list]) (by simp [DelOp.unl, hk])
    (fun x => by simp only [Tail.seg]; omega) ?_ (by rw [hcm, commit_store]) ?_ rfl ⟨⟨lv, by rw [htree, has_plug]; exact .inr hkey⟩, htree ▸ (hpfx ▸ KeepBig.merge hne).plug _,
    htree ▸ (hpfx ▸ KeepBig.split (ch2_snd ..)).plug _⟩
  · intro n' s h
    simp only [Option.some.injEq, Prod.mk.injEq] at h
    rw [← h.1, ← h.2, hcount, hslots]
    obtain ⟨f1, f2, f3, f4, f5, f6, f7, f8, f9⟩ := store_fields st op.nodePtr
      (buildNode (keyByte op.raw) n op.count op.pfx.length)
    rw [hcount] at f6
    exact ⟨hinb2.1.1, by rw [f6]; exact hinb2.1.2.1, hinb2.1.2.2⟩
  · rw [htree]
    apply Del1.plug hwf hpath
    intro k' v'
    have e : (T.node op.node pfx false (ch2 k (.leaf lk lv) k2 (.node op.child pfx2 big2 kids))).Has k' v' ↔
        (T.leaf lk lv).Has k' v' ∨ (T.node op.child pfx2 big2 kids).Has k' v' :=
      ch2_exists (Q := fun _ t => t.Has k' v') hne (fun _ h => h)
    rw [e]
    show (∃ c, (kids c).Has k' v') ↔ _
    constructor
    · intro h
      refine ⟨?_, .inr h⟩
      rintro rfl
      exact hne (prefix_snoc_inj hwk.1 (hwk2.has (k := k') h).1)
    · rintro ⟨h1, ⟨rfl, _⟩ | h2⟩
      · exact absurd rfl h1
      · exact h2

omit hP in
/-- Deleting a leaf of a 256-way node, if the slot still belongs to the node in the tree. -/
theorem cmtD_256 (hk : op.kind = .deleteLeaf256) {q node pfx' ch' k}
    (hat : At t q (.node node pfx' true ch')) (hptr : op.leafPtr = .slot (childSlot node pfx' true ch' k)) :
    DOut P st t N0 op key cm.priv (st.commit cm) := by
  unfold DFactAt at hf
  unfold DBlt at hb
  rw [hk] at hf hb
  obtain ⟨hv, hlf⟩ := hf
  have hpr : cm.priv = fun _ => 0 := priv_nil (by rw [hb])
  generalize cm.priv = Q at hcore hpr ⊢
  rw [hb]
  by_cases hload : st.load op.leafPtr = op.raw
  · have hword : wordOf k (ch' k) = op.raw := by
      rw [← hload, hptr]
      exact ((hat.repr hcore.repr).1.kid k (.inl rfl)).symm
    obtain ⟨lk, lv, hch⟩ : ∃ lk lv, ch' k = .leaf lk lv := by
      cases hc : ch' k with
      | empty => rw [hc] at hword; rw [← hword] at hlf; simp [wordOf, isLeaf] at hlf
      | leaf lk lv => exact ⟨lk, lv, rfl⟩
      | node a' p' b' c' =>
        exfalso
        have hib := ((hat.inBlocks hcore.inb).2 k)
        rw [hc] at hib hword
        have hlt := hib.addr_lt hcore.bn
        rw [← hword] at hlf
        simp only [wordOf] at hlf
        rw [isLeaf_buildNode hlt (cnt_le _ _)] at hlf
        simp at hlf
    have hwk := (hat.wf hcore.wf).2.2 k
    rw [hch] at hwk
    rw [hch] at hword
    simp only [wordOf] at hword
    have hval : op.value = trunc55 lv := by rw [hv, ← hword]; simp
    obtain rfl := hm lk lv hwk.2 hval.symm
    rw [commit_hit hload]
    obtain ⟨C, htree, hpath⟩ := hat.ctx
    have hn : Norm (C ++ [⟨node, pfx', true, ch', k⟩]) (ch' k) := by
      intro f hf
      have : (⟨node, pfx', true, ch', k⟩ : Frame) = f := by simpa using hf
      subst this
      rfl
    have hlast : ∀ f, (C ++ [⟨node, pfx', true, ch', k⟩] : Ctx).getLast? = some f → f = ⟨node, pfx', true, ch', k⟩ := by
      intro f hf
      exact (by simpa using hf : (⟨node, pfx', true, ch', k⟩ : Frame) = f).symm
    have htree' : t = plug (C ++ [⟨node, pfx', true, ch', k⟩]) (ch' k) := by rw [plug_last hn]; exact htree
    have hp : op.leafPtr = holePtr (C ++ [⟨node, pfx', true, ch', k⟩]) := by rw [hptr]; simp [holePtr]
    have hw : (0 : Word) = holeWord (C ++ [⟨node, pfx', true, ch', k⟩]) .empty := by simp [holeWord, wordOf]
    have hbig : ∀ f, (C ++ [⟨node, pfx', true, ch', k⟩] : Ctx).getLast? = some f → f.big = true := by
      intro f hf; rw [hlast f hf]
    have hcore' := hcore
    rw [htree'] at hcore'
    have e2 := pub_intro (t1 := .empty) (D := fun _ => 0) (L := []) hcore' hn
      (fun f hf => .inl (hbig f hf)) (fun f hf => .inl (hbig f hf)) trivial trivial trivial
      (fun x => by show 0 + 0 ≤ _; omega) rfl
      (by
        rw [plug_child, plug_child, upd_self]
        exact Stable_erase256 (by rw [hch]; rfl))
      (.of_not_node (by rw [hch]; rfl)) (.of_not_node rfl)
    rw [← htree', ← hp, ← hw] at e2
    refine DOut.ok (tl := { items := -1 }) (fun _ => inplace_kept htree' (.inl rfl) fun x => by rw [hpr, hch]; exact Nat.le_refl _) e2 (by simp [DelOp.unl, hk, Unlock.list]) (by simp [DelOp.unl, hk])
      (fun x => by simp only [Tail.seg]; omega) (by simp) rfl ?_ rfl ⟨⟨lv, hat.has ⟨k, by rw [hch]; exact ⟨rfl, rfl⟩⟩⟩,
      htree' ▸ (KeepBig.of_not_node (by rw [hch]; rfl)).plug _, htree' ▸ (KeepBig.of_not_node rfl).plug _⟩
    rw [htree']
    have hwf := hcore'.wf
    refine Del1.plug hwf (path_prefix hwf (v := lv) (by rw [hch]; exact ⟨rfl, rfl⟩)) ?_
    intro k' v'
    rw [hch]
    simp only [T.Has, false_iff]
    rintro ⟨h1, rfl, _⟩
    exact h1 rfl
  · refine .inr ⟨⟨hk, hload⟩, ?_⟩
    rw [commit_miss hload]

/-- Publishing the change of a prepared delete whose key was found to match. -/
theorem cmtD_spec (h256 : op.kind = .deleteLeaf256 → ∃ q node pfx ch k, At t q (.node node pfx true ch) ∧
      op.leafPtr = .slot (childSlot node pfx true ch k)) : DOut P st t N0 op key cm.priv (st.commit cm) := by
  cases hk : op.kind with
  | deleteRoot => exact cmtD_root hcore hf hm hb hk
  | replaceNodeWithLeaf => exact cmtD_leaf hP hcore hf hm hb hk
  | replaceNodeWithNode => exact cmtD_node hcore hf hm hb hk
  | deleteLeaf => exact cmtD_shrink hcore hf hm hb hk
  | deleteLeaf256 =>
    obtain ⟨q, node, pfx, ch, k, h1, h2⟩ := h256 hk
    exact cmtD_256 hcore hf hm hb hk h1 h2
  | notFound =>
    unfold DFactAt at hf
    rw [hk] at hf
    exact hf.elim

end

end

end Radix
