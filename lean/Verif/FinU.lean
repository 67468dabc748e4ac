import Verif.Dense
/-!
# `UpdateOperation.Finalize`
-/
namespace Radix
open T

/-- The prepared update refers to this node. -/
structure UAt (t : T) (op : UpdOp) (C : Ctx) (pfx : List UInt8) (big : Bool) (ch : UInt8 → T) : Prop where
  node : NodeAt t C op.node op.parent op.nodePtr op.raw pfx big ch
  count : op.count = cnt big ch
  pre : op.pfx = pfx
  slots : op.prefixSlots = prefixSlots pfx.length
  data : op.data = ⟨op.node, blockSlots - op.node % blockSlots⟩

/-- ... and the key continues below it with byte `op.k`. -/
structure UIn (t : T) (op : UpdOp) (C : Ctx) (pfx : List UInt8) (big : Bool) (ch : UInt8 → T) : Prop
    extends UAt t op C pfx big ch where
  depth : op.depth = (pathOf C ++ pfx).length
  path : pathOf C ++ pfx ++ [op.k] <+: op.key

/-- The update found a leaf in the node. -/
structure ULeaf (P : Key → Word → Prop) (t : T) (op : UpdOp) (C : Ctx) (pfx : List UInt8) (big : Bool)
    (ch : UInt8 → T) (lk : Key) (lv : Word) : Prop extends UIn t op C pfx big ch where
  lkey : pathOf C ++ pfx ++ [op.k] <+: lk
  pair : P lk lv
  leaf : op.currentLeaf = buildLeaf op.k lv
  value : op.value = trunc55 lv
  child : ch op.k = .leaf lk lv ∨ (big = true ∧ ch op.k = .empty)
  ptr : op.leafPtr = .slot (childSlot op.node pfx big ch op.k)

/-- What holds of a prepared update as long as it holds its locks. -/
def UFact (P : Key → Word → Prop) (t : T) (op : UpdOp) : Prop :=
  match op.kind with
  | .replaceEmptyRootWithLeaf => t = .empty ∧ op.key.head? = some op.k
  | .replaceLeafRootWithNode => ∃ lk lv, t = .leaf lk lv ∧ op.currentLeaf = buildLeaf (lk.headD 0) lv ∧
      op.key.head? = some op.k ∧ lk.headD 0 ≠ op.k
  | .rootLeafUpdate => ∃ lk lv, t = .leaf lk lv ∧ op.currentLeaf = buildLeaf (lk.headD 0) lv ∧
      op.key.head? = some op.k ∧ lk.headD 0 = op.k ∧ op.value = trunc55 lv
  | .nodePrefixMiss => ∃ C pfx big ch p1 kb p2 ka rest, UAt t op C pfx big ch ∧ pfx = p1 ++ kb :: p2 ∧
      op.key = pathOf C ++ p1 ++ ka :: rest ∧ ka ≠ kb ∧ op.depth = (pathOf C).length ∧ op.prefixMismatch = p1.length
  | .nodeLeafInsert256 => ∃ C pfx ch, UIn t op C pfx true ch ∧ ch op.k = .empty ∧
      op.leafPtr = .slot (childSlot op.node pfx true ch op.k)
  | .nodeLeafInsert => ∃ C pfx ch, UIn t op C pfx false ch ∧ ch op.k = .empty ∧
      op.position = rankOf (present ch) op.k
  | .nodeLeafUpdate => ∃ C pfx ch lk lv, ULeaf P t op C pfx false ch lk lv
  | .nodeLeafUpdate256 => ∃ C pfx ch lk lv, ULeaf P t op C pfx true ch lk lv

/-- The locks a prepared update holds. -/
def UpdOp.unl (op : UpdOp) : Unlock :=
  match op.kind with
  | .replaceEmptyRootWithLeaf | .replaceLeafRootWithNode | .rootLeafUpdate => .root
  | _ => .two op.node op.parent

/-- `UFact` for the node of the tree that the operation refers to. -/
def UFactAt (P : Key → Word → Prop) (t : T) (op : UpdOp) (C : Ctx) (pfx : List UInt8) (big : Bool) (ch : UInt8 → T) : Prop :=
  match op.kind with
  | .replaceEmptyRootWithLeaf => t = .empty ∧ op.key.head? = some op.k
  | .replaceLeafRootWithNode => ∃ lk lv, t = .leaf lk lv ∧ op.currentLeaf = buildLeaf (lk.headD 0) lv ∧
      op.key.head? = some op.k ∧ lk.headD 0 ≠ op.k
  | .rootLeafUpdate => ∃ lk lv, t = .leaf lk lv ∧ op.currentLeaf = buildLeaf (lk.headD 0) lv ∧
      op.key.head? = some op.k ∧ lk.headD 0 = op.k ∧ op.value = trunc55 lv
  | .nodePrefixMiss => UAt t op C pfx big ch ∧ ∃ p1 kb p2 ka rest, pfx = p1 ++ kb :: p2 ∧
      op.key = pathOf C ++ p1 ++ ka :: rest ∧ ka ≠ kb ∧ op.depth = (pathOf C).length ∧ op.prefixMismatch = p1.length
  | .nodeLeafInsert256 => big = true ∧ UIn t op C pfx big ch ∧ ch op.k = .empty ∧
      op.leafPtr = .slot (childSlot op.node pfx big ch op.k)
  | .nodeLeafInsert => big = false ∧ UIn t op C pfx big ch ∧ ch op.k = .empty ∧ op.position = rankOf (present ch) op.k
  | .nodeLeafUpdate => big = false ∧ ∃ lk lv, ULeaf P t op C pfx big ch lk lv
  | .nodeLeafUpdate256 => big = true ∧ ∃ lk lv, ULeaf P t op C pfx big ch lk lv

theorem UFactAt.fact {P t op C pfx big ch} (h : UFactAt P t op C pfx big ch) : UFact P t op := by
  unfold UFactAt at h
  unfold UFact
  split at h
  · exact h
  · exact h
  · exact h
  · obtain ⟨h1, p1, kb, p2, ka, rest, h2⟩ := h
    exact ⟨C, pfx, big, ch, p1, kb, p2, ka, rest, h1, h2⟩
  · obtain ⟨rfl, h⟩ := h
    exact ⟨C, pfx, ch, h⟩
  · obtain ⟨rfl, h⟩ := h
    exact ⟨C, pfx, ch, h⟩
  · obtain ⟨rfl, lk, lv, h⟩ := h
    exact ⟨C, pfx, ch, lk, lv, h⟩
  · obtain ⟨rfl, lk, lv, h⟩ := h
    exact ⟨C, pfx, ch, lk, lv, h⟩

/-- The change that a prepared update is about to publish, and the nodes built for it; `q`, `pfx`, `big`, `ch` describe the node of the
tree that the operation refers to. -/
def UBlt (P : Key → Word → Prop) (st : St) (t : T) (op : UpdOp) (value : Word) (cm : Commit) (q pfx : List UInt8) (big : Bool)
    (ch : UInt8 → T) : Prop :=
  match op.kind with
  | .replaceEmptyRootWithLeaf => cm =
      { ptr := .root, exp := some 0, new := buildLeaf op.k value,
        ok := { unl := .root, items := 1 }, ko := { unl := .root } }
  | .replaceLeafRootWithNode => ∀ lk lv, t = .leaf lk lv → ∃ n, Halves st [] op.key value lk lv [] n ∧
      cm = { ptr := .root, exp := some op.currentLeaf, new := buildNode 0 n 2 0, nodes := [(n, 2)],
             ok := { unl := .root, items := 1 }, ko := { unl := .root } }
  | .rootLeafUpdate => ∀ lk lv, t = .leaf lk lv →
      (lk = op.key ∧ cm = { ptr := .root, exp := some op.currentLeaf, new := buildLeaf op.k value,
                            ok := { unl := .root }, ko := { unl := .root } }) ∨
      (lk ≠ op.key ∧ ∃ c n, Halves st [] op.key value lk lv c n ∧
        cm = { ptr := .root, exp := some op.currentLeaf, new := buildNode 0 n 2 c.length, nodes := [(n, 2 + prefixSlots c.length)],
               ok := { unl := .root, items := 1 }, ko := { unl := .root } })
  | .nodePrefixMiss => ∃ p1 kb p2 ka rest n1 n2, pfx = p1 ++ kb :: p2 ∧ op.key = q ++ p1 ++ ka :: rest ∧ ka ≠ kb ∧
      Made st n1 p2 big ch ∧ Made st n2 p1 false (ch2 ka (.leaf op.key (trunc55 value)) kb (.node n1 p2 big ch)) ∧
      cm = { ptr := op.nodePtr, new := buildNode (keyByte op.raw) n2 2 p1.length,
             nodes := [(n1, op.count + prefixSlots p2.length), (n2, 2 + prefixSlots p1.length)],
             ok := { unl := .two op.node op.parent, free := some (op.node, op.count + op.prefixSlots), items := 1 } }
  | .nodeLeafInsert256 => cm =
      { ptr := op.leafPtr, exp := some 0, new := buildLeaf op.k value,
        ok := { unl := .two op.node op.parent, items := 1 }, ko := { unl := .two op.node op.parent } }
  | .nodeLeafInsert => ∃ n big', (big' = true ↔ ¬ op.count < fullAllocAfter) ∧
      Made st n pfx big' (upd ch op.k (.leaf op.key (trunc55 value))) ∧
      cm = { ptr := op.nodePtr, new := buildNode (keyByte op.raw) n (if big' then 256 else op.count + 1) pfx.length,
             nodes := [(n, (if big' then 256 else op.count + 1) + prefixSlots pfx.length)],
             ok := { unl := .two op.node op.parent, free := some (op.node, op.count + op.prefixSlots), items := 1 } }
  | .nodeLeafUpdate | .nodeLeafUpdate256 => ∀ lk lv, P lk lv → op.currentLeaf = buildLeaf op.k lv → op.value = trunc55 lv →
      q ++ pfx ++ [op.k] <+: lk →
      (lk = op.key ∧ cm = { ptr := op.leafPtr, exp := some op.currentLeaf, new := buildLeaf op.k value,
                            ok := { unl := .two op.node op.parent }, ko := { unl := .two op.node op.parent } }) ∨
      (lk ≠ op.key ∧ ∃ c n, Halves st (q ++ pfx ++ [op.k]) op.key value lk lv c n ∧
        cm = { ptr := op.leafPtr, exp := some op.currentLeaf, new := buildNode op.k n 2 c.length,
               nodes := [(n, 2 + prefixSlots c.length)],
               ok := { unl := .two op.node op.parent, items := 1 }, ko := { unl := .two op.node op.parent } })

/-- The outcomes of building the new nodes of an update. `N`: pending memory of other operations. -/
def UMade (P : Key → Word → Prop) (a : Nat) (st : St) (t : T) (N : Nat → Nat) (op : UpdOp) (value : Word) (q pfx : List UInt8)
    (big : Bool) (ch : UInt8 → T) (r : Res (Commit × St)) : Prop :=
  r = .error .noBlocks ∨
  ∃ cm st', r = .ok (cm, st') ∧ AllocEff a st st' N (fun x => N x + cm.priv x) ∧ UBlt P st' t op value cm q pfx big ch

/-- The outcomes of publishing the change of an update. -/
def UOut (P : Key → Word → Prop) (st : St) (t : T) (N : Nat → Nat) (op : UpdOp) (value : Word) (Q : Nat → Nat)
    (r : Bool × Tail × St) : Prop :=
  (∃ st' t' tl, r = (true, tl, st') ∧ PubEff P st st' t t' (fun x => N x + Q x) (fun x => N x + tl.seg x) Q op.unl.list ∧
    tl.unl = op.unl ∧ (∀ n slots, tl.free = some (n, slots) → NewPos st' n slots) ∧
    Upd1 t t' op.key (trunc55 value) ∧
    ((tl.items = 1 ∧ ∀ v, ¬ t.Has op.key v) ∨ (tl.items = 0 ∧ ∃ v, t.Has op.key v)) ∧ ((t.Dense → t'.Dense) ∧ KeepBig t t') ∧
    ∀ x, t.cover x + Q x ≤ t'.cover x + tl.seg x) ∨
  ((op.kind = .nodeLeafUpdate256 ∧ st.load op.leafPtr ≠ op.currentLeaf) ∧ r = (false, { unl := op.unl }, st))

theorem UOut.ok {P st t op value r st' t' L N N' Q tl} (hkp : ∀ x, t.cover x + Q x ≤ t'.cover x + tl.seg x)
    (hpub : PubEff P st st' t t' (fun x => N x + Q x) N' Q L) (hL : op.unl.list = L)
    (hu : tl.unl = op.unl) (hN : N' = fun x => N x + tl.seg x)
    (hp : ∀ n slots, tl.free = some (n, slots) → NewPos st' n slots)
    (hr : r = (true, tl, st')) (hup : Upd1 t t' op.key (trunc55 value))
    (hd : (tl.items = 1 ∧ ∀ v, ¬ t.Has op.key v) ∨ (tl.items = 0 ∧ ∃ v, t.Has op.key v)) (hdn : (t.Dense → t'.Dense) ∧ KeepBig t t') :
    UOut P st t N op value Q r := by
  subst hL hN
  exact .inl ⟨st', t', tl, hr, hpub, hu, hp, hup, hd, hdn, hkp⟩

theorem UOut.okRoot {P st t op value r st' t'} {N Q : Nat → Nat} {items : Int} (hkp : ∀ x, t.cover x + Q x ≤ t'.cover x)
    (hpub : PubEff P st st' t t' (fun x => N x + Q x) N Q [])
    (hu : op.unl = .root) (hr : r = (true, { unl := .root, items := items }, st'))
    (hup : Upd1 t t' op.key (trunc55 value))
    (hd : (items = 1 ∧ ∀ v, ¬ t.Has op.key v) ∨ (items = 0 ∧ ∃ v, t.Has op.key v)) (hdn : (t.Dense → t'.Dense) ∧ KeepBig t t') :
    UOut P st t N op value Q r :=
  UOut.ok (tl := { unl := _, items := items }) hkp hpub (by rw [hu]; rfl) hu.symm (by funext x; simp [Tail.seg]) (by simp) hr hup hd hdn

theorem UOut.okTwo {P st t op value r st' t'} {N Q : Nat → Nat} {items : Int} (hkp : ∀ x, t.cover x + Q x ≤ t'.cover x)
    (hpub : PubEff P st st' t t' (fun x => N x + Q x) N Q (lockList2 op.node op.parent)) (hu : op.unl = .two op.node op.parent)
    (hr : r = (true, { unl := .two op.node op.parent, items := items }, st'))
    (hup : Upd1 t t' op.key (trunc55 value))
    (hd : (items = 1 ∧ ∀ v, ¬ t.Has op.key v) ∨ (items = 0 ∧ ∃ v, t.Has op.key v)) (hdn : (t.Dense → t'.Dense) ∧ KeepBig t t') :
    UOut P st t N op value Q r :=
  UOut.ok (tl := { unl := _, items := items }) hkp hpub (by rw [hu]; rfl) hu.symm (by funext x; simp [Tail.seg]) (by simp) hr hup hd hdn

theorem UOut.okFree {P st t op value r st' t'} {N Q : Nat → Nat} {n slots : Nat}
    (hkp : ∀ x, t.cover x + Q x ≤ t'.cover x + seg n slots x)
    (hpub : PubEff P st st' t t' (fun x => N x + Q x) (fun x => N x + seg n slots x) Q (lockList2 op.node op.parent))
    (hu : op.unl = .two op.node op.parent) (hp : NewPos st' n slots)
    (hr : r = (true, { unl := .two op.node op.parent, free := some (n, slots), items := 1 }, st'))
    (hup : Upd1 t t' op.key (trunc55 value)) (hd : ∀ v, ¬ t.Has op.key v) (hdn : (t.Dense → t'.Dense) ∧ KeepBig t t') :
    UOut P st t N op value Q r :=
  UOut.ok hkp hpub (by rw [hu]; rfl) hu.symm (by funext x; simp [Tail.seg])
    (fun n' s' h => by simp only [Option.some.injEq, Prod.mk.injEq] at h; rw [← h.1, ← h.2]; exact hp) hr hup (.inl ⟨rfl, hd⟩) hdn

theorem commit_store (st : St) (p : Ptr) (w : Word) (l : List (Nat × Nat)) (tl tl' : Tail) :
    st.commit { ptr := p, new := w, nodes := l, ok := tl, ko := tl' } = (true, tl, st.store p w) := rfl

theorem commit_hit {st : St} {p : Ptr} {old w : Word} {l : List (Nat × Nat)} {tl tl' : Tail} (h : st.load p = old) :
    st.commit { ptr := p, exp := some old, new := w, nodes := l, ok := tl, ko := tl' } = (true, tl, st.store p w) := by
  simp [St.commit, St.cas, h]

theorem commit_miss {st : St} {p : Ptr} {old w : Word} {l : List (Nat × Nat)} {tl tl' : Tail} (h : st.load p ≠ old) :
    st.commit { ptr := p, exp := some old, new := w, nodes := l, ok := tl, ko := tl' } = (false, tl', st) := by
  simp [St.commit, St.cas, h]

theorem priv_one (n slots : Nat) {cm : Commit} (h : cm.nodes = [(n, slots)]) : cm.priv = seg n slots := by
  funext x; simp [Commit.priv, h]

theorem priv_nil {cm : Commit} (h : cm.nodes = []) : cm.priv = fun _ => 0 := by
  funext x; simp [Commit.priv, h]

theorem UMade.none {P a st t N op value q pfx big ch} {cm : Commit} {r : Res (Commit × St)} (hcore : CoreN P st t N)
    (hr : r = .ok (cm, st)) (hn : cm.nodes = []) (hb : UBlt P st t op value cm q pfx big ch) :
    UMade P a st t N op value q pfx big ch r := by
  refine .inr ⟨cm, st, hr, ?_, hb⟩
  rw [priv_nil hn]
  exact AllocEff.refl (N := fun x => N x + 0) hcore.ok hcore.n0

/-! ## Splitting keys -/

theorem commonLen_split : ∀ {a b : Key}, ¬ a <+: b → ¬ b <+: a →
    ∃ c x y r s, a = c ++ x :: r ∧ b = c ++ y :: s ∧ x ≠ y ∧ commonLen a b = c.length := by
  intro a
  induction a with
  | nil => intro b h _; exact absurd (List.nil_prefix) h
  | cons x r ih =>
    intro b h1 h2
    cases b with
    | nil => exact absurd (List.nil_prefix) h2
    | cons y s =>
      by_cases hxy : x = y
      · subst hxy
        obtain ⟨c, x', y', r', s', e1, e2, e3, e4⟩ := ih (b := s)
          (fun h => h1 (by simpa [List.cons_prefix_cons] using h)) (fun h => h2 (by simpa [List.cons_prefix_cons] using h))
        refine ⟨x :: c, x', y', r', s', by simp [e1], by simp [e2], e3, ?_⟩
        simp [commonLen, e4]
      · exact ⟨[], x, y, r, s, rfl, rfl, hxy, by simp [commonLen, hxy]⟩

theorem rootCommon_eq : ∀ {a b : Key}, ¬ a <+: b → ¬ b <+: a → rootCommon a b = .ok (commonLen a b) := by
  intro a
  induction a with
  | nil => intro b h _; exact absurd (List.nil_prefix) h
  | cons x r ih =>
    intro b h1 h2
    cases b with
    | nil => exact absurd (List.nil_prefix) h2
    | cons y s =>
      unfold rootCommon commonLen
      by_cases hxy : x = y
      · subst hxy
        have h3 : ¬ r <+: s := fun h => h1 (by simpa [List.cons_prefix_cons] using h)
        have h4 : ¬ s <+: r := fun h => h2 (by simpa [List.cons_prefix_cons] using h)
        have h5 : ¬ (r = [] ∨ s = []) := by
          rintro (rfl | rfl)
          · exact h3 List.nil_prefix
          · exact h4 List.nil_prefix
        rw [if_pos rfl, if_neg h5, ih h3 h4, if_pos rfl]
        rfl
      · rw [if_neg hxy, if_neg hxy]

theorem keyAt_append {p r : Key} {k : UInt8} {i : Nat} (h : i = p.length) : keyAt (p ++ k :: r) i = .ok k := by
  unfold keyAt
  subst h
  simp

theorem prefix_drop {p k : Key} (h : p <+: k) : k = p ++ k.drop p.length := by
  obtain ⟨r, rfl⟩ := h
  simp

/-! ## Splitting a leaf -/

/-- The node that takes the place of a leaf when another key with the same path is added. -/
theorem splitLeaf_facts {P : Key → Word → Prop} {key lk : Key} {val lv : Word} {p c r s : Key} {ka kb : UInt8} {n : Nat}
    (hP : KeysOK P) (hk : P key val) (hl : P lk lv) (ek : key = p ++ c ++ ka :: r) (el : lk = p ++ c ++ kb :: s)
    (hne : ka ≠ kb) :
    (T.node n c false (ch2 ka (.leaf key val) kb (.leaf lk lv))).WF P p ∧
    Upd1 (.leaf lk lv) (T.node n c false (ch2 ka (.leaf key val) kb (.leaf lk lv))) key val ∧
    ∀ v, ¬ (T.leaf lk lv).Has key v := by
  have hkl : lk ≠ key := by
    intro e
    rw [ek, el] at e
    exact hne (append_cons_inj e).1.symm
  refine ⟨⟨?_, ?_, ?_⟩, ?_, ?_⟩
  · refine ⟨?_, key, val, ka, hk, ⟨r, by simp [ek]⟩⟩
    have := hP.len hk
    rw [ek] at this
    simp only [List.length_append, List.length_cons] at this ⊢
    omega
  · intro _
    rw [cntOf_ch2 rfl rfl hne]
    omega
  · intro x
    refine ch2_forall (Q := fun x t => t.WF P (p ++ c ++ [x])) (ta := .leaf key val) (tb := .leaf lk lv) hne
      ⟨?_, hk⟩ ⟨?_, hl⟩ (fun _ => trivial) x
    · exact ⟨r, by simp [ek]⟩
    · exact ⟨s, by simp [el]⟩
  · intro k v
    simp only [T.Has]
    rw [ch2_exists (Q := fun _ t => t.Has k v) hne (fun _ h => h)]
    simp only [T.Has]
    constructor
    · rintro (⟨rfl, rfl⟩ | ⟨rfl, rfl⟩)
      · exact .inl ⟨rfl, rfl⟩
      · exact .inr ⟨hkl, rfl, rfl⟩
    · rintro (⟨rfl, rfl⟩ | ⟨_, rfl, rfl⟩)
      · exact .inl ⟨rfl, rfl⟩
      · exact .inr ⟨rfl, rfl⟩
  · intro v h
    exact hkl h.1

theorem wordOf_leaf_trunc (b : UInt8) (k : Key) (v : Word) : wordOf b (.leaf k (trunc55 v)) = buildLeaf b v := by
  simp [wordOf]

/-- Building the node that splits a leaf (root leaf or leaf in a node). -/
theorem splitLeaf_build {P st t a} {key lk : Key} {val lv : Word} {c : Key} {ka kb : UInt8}
    {N0 : Nat → Nat} (hcore : CoreN P st t N0) (ha : a < st.nalloc) (hc : c.length < maxKeyLen) (hne : ka ≠ kb) :
    st.allocNodeP a 2 c = .error .noBlocks ∨
    ∃ n st1 m, st.allocNodeP a 2 c = .ok (n, ⟨n + prefixSlots c.length,
        blockSlots - n % blockSlots - prefixSlots c.length⟩, st1) ∧
      addSortedChildren st1.mem ⟨n + prefixSlots c.length, blockSlots - n % blockSlots - prefixSlots c.length⟩
        (buildLeaf ka val) (buildLeaf kb lv) = .ok m ∧
      AllocEff a st { st1 with mem := m } N0 (fun x => N0 x + seg n (2 + prefixSlots c.length) x) ∧
      Made { st1 with mem := m } n c false (ch2 ka (.leaf key (trunc55 val)) kb (.leaf lk lv)) := by
  rcases build2_spec (ta := .leaf key (trunc55 val)) (tb := .leaf lk lv) (ba := ka) (bb := kb) (pfx := c) hcore ha hc rfl
    rfl hne trivial trivial trivial trivial (fun x h => absurd h (Nat.lt_irrefl 0)) (fun x h => absurd h (Nat.lt_irrefl 0)) with
    h | ⟨n, st1, m, h1, h2, h3, h4, h5⟩
  · exact .inl h
  · refine .inr ⟨n, st1, m, h1, ?_, h3, .of h4 h5⟩
    rw [← wordOf_leaf_trunc ka key val]; exact h2

/-- What the node that splits a leaf is good for. -/
theorem Halves.facts {P : Key → Word → Prop} {st : St} {p key lk c : Key} {value lv : Word} {n : Nat} (h : Halves st p key value lk lv c n)
    (hP : KeysOK P) (hk : P key (trunc55 value)) (hl : P lk lv) :
    ∃ t1 : T, t1.Repr st.mem ∧ t1.InBlocks st.baNext ∧ t1.WF P p ∧ (∀ x, t1.cover x = seg n (2 + prefixSlots c.length) x) ∧
      Upd1 (.leaf lk lv) t1 key (trunc55 value) ∧ (∀ v, ¬ (T.leaf lk lv).Has key v) ∧ t1.Dense ∧ t1.isEmpty = false ∧
      (∀ b, wordOf b t1 = buildNode b n 2 c.length) ∧ rootWord t1 = buildNode 0 n 2 c.length := by
  obtain ⟨ka, kb, r, s, e1, e2, hne, hm⟩ := h
  obtain ⟨h1, h2, h3⟩ := splitLeaf_facts (n := n) hP hk hl e1 e2 hne
  obtain ⟨h4, h5⟩ := hm.repr (ch2_forall (Q := fun _ u => u.Repr st.mem ∧ u.InBlocks st.baNext) (ta := .leaf key (trunc55 value))
    (tb := .leaf lk lv) hne ⟨trivial, trivial⟩ ⟨trivial, trivial⟩ (fun _ => ⟨trivial, trivial⟩))
  refine ⟨_, h4, h5, h1, ?_, h2, h3, Dense_ch2 hne trivial trivial, rfl, ?_, ?_⟩
  · intro x
    rw [cover_node_eq, sumB_ch2 hne, nodeSize_ch2 rfl rfl hne]
    simp [T.cover]
  · intro b
    simp [wordOf, cnt, cntOf_ch2 (ta := .leaf key (trunc55 value)) (tb := .leaf lk lv) rfl rfl hne]
  · simp [rootWord, cnt, cntOf_ch2 (ta := .leaf key (trunc55 value)) (tb := .leaf lk lv) rfl rfl hne]

theorem allocNode_two {st : St} {a n : Nat} {st1 : St}
    (h : st.allocNodeP a 2 [] = .ok (n, ⟨n + prefixSlots 0, blockSlots - n % blockSlots - prefixSlots 0⟩, st1)) :
    st.allocNode a 2 0 = .ok (n, ⟨n + prefixSlots 0, blockSlots - n % blockSlots - prefixSlots 0⟩, st1) := by
  unfold St.allocNodeP at h
  unfold St.allocNode
  rw [← h]
  rfl

theorem allocNode_two_err {st : St} {a : Nat} (h : st.allocNodeP a 2 [] = .error .noBlocks) :
    st.allocNode a 2 0 = .error .noBlocks := by
  unfold St.allocNodeP at h
  unfold St.allocNode
  rw [← h]
  rfl

/-! ## Root kinds -/

section
variable {P : Key → Word → Prop} {a : Nat} {st : St} {t : T} {op : UpdOp} {fetched : Key} {isMatch : Bool} {value : Word}
  {N0 : Nat → Nat} {C : Ctx} {pfx : List UInt8} {big : Bool} {ch : UInt8 → T}
  (hP : KeysOK P) (hpair : P op.key (trunc55 value)) (hf : UFactAt P t op C pfx big ch)

section
variable (hcore : CoreN P st t N0) (ha : a < st.nalloc)
include hcore

theorem bldU_empty (hk : op.kind = .replaceEmptyRootWithLeaf) :
    UMade P a st t N0 op value (pathOf C) pfx big ch (buildU st a op fetched isMatch value) := by
  refine UMade.none hcore (by unfold buildU; rw [hk]; rfl) rfl ?_
  unfold UBlt
  rw [hk]

include hP hpair hf ha

omit hpair in
theorem bldU_rootNode (hk : op.kind = .replaceLeafRootWithNode) :
    UMade P a st t N0 op value (pathOf C) pfx big ch (buildU st a op fetched isMatch value) := by
  unfold UFactAt at hf
  rw [hk] at hf
  obtain ⟨lk, lv, rfl, hcl, hh, hne⟩ := hf
  have hl : P lk lv := hcore.wf.2
  obtain ⟨r, ek⟩ : ∃ r, op.key = op.k :: r := by
    cases hkk : op.key with
    | nil => simp [hkk] at hh
    | cons x r => simp [hkk] at hh; exact ⟨r, by simp [hh]⟩
  obtain ⟨s, el⟩ : ∃ s, lk = lk.headD 0 :: s := by
    cases hkk : lk with
    | nil => exact absurd hkk (hP.ne hl)
    | cons x r => exact ⟨r, rfl⟩
  generalize hkb : lk.headD 0 = kb at *
  unfold buildU
  rw [hk]
  simp only
  rcases splitLeaf_build (key := op.key) (lk := lk) (val := value) (lv := lv) (c := []) hcore ha (by rw [maxKeyLen_eq]; simp)
    (Ne.symm hne) with h | ⟨n, st1, m, h1, h2, h3, h4⟩
  · left; rw [allocNode_two_err h]; rfl
  rw [allocNode_two h1]
  have h2' : addSortedChildren st1.mem ⟨n + prefixSlots 0, blockSlots - n % blockSlots - prefixSlots 0⟩
      op.currentLeaf (buildLeaf op.k value) = .ok m := by
    rw [hcl, ← h2]
    unfold addSortedChildren
    simp only [keyByte_buildLeaf, List.length_nil]
    rcases UInt8.lt_or_lt_of_ne hne with h | h
    · rw [if_pos h, if_neg (UInt8.lt_asymm h)]
    · rw [if_neg (UInt8.lt_asymm h), if_pos h]
  simp only [bind, Except.bind, h2']
  refine .inr ⟨_, _, rfl, ?_, ?_⟩
  · rw [priv_one n 2 rfl]; exact h3
  · unfold UBlt
    rw [hk]
    simp only
    intro lk' lv' e
    injection e with e1 e2
    subst e1 e2
    exact ⟨n, ⟨op.k, kb, r, s, by simpa using ek, by simpa using el, Ne.symm hne, h4⟩, rfl⟩

theorem bldU_rootUpdate (hk : op.kind = .rootLeafUpdate) (hfe : ∀ lk lv, P lk lv → trunc55 lv = op.value → fetched = lk)
    (hm : isMatch = decide (fetched = op.key)) :
    UMade P a st t N0 op value (pathOf C) pfx big ch (buildU st a op fetched isMatch value) := by
  unfold UFactAt at hf
  rw [hk] at hf
  obtain ⟨lk, lv, rfl, hcl, hh, hkk, hv⟩ := hf
  have hl : P lk lv := hcore.wf.2
  have hfl : fetched = lk := hfe lk lv hl hv.symm
  subst hfl
  by_cases hmm : fetched = op.key
  · have : isMatch = true := by simp [hm, hmm]
    refine UMade.none (cm := { ptr := .root, exp := some op.currentLeaf, new := buildLeaf op.k value,
                               ok := { unl := .root }, ko := { unl := .root } }) hcore
      (by unfold buildU; rw [hk]; simp only; rw [if_pos this]; rfl) rfl ?_
    unfold UBlt
    rw [hk]
    simp only
    intro lk' lv' e
    injection e with e1 e2
    exact .inl ⟨by rw [← e1, hmm], trivial⟩
  · have : ¬ isMatch = true := by simp [hm, hmm]
    unfold buildU
    rw [hk]
    simp only
    rw [if_neg this]
    have hn1 : ¬ op.key <+: fetched := fun h => hmm (hP.free hpair hl h).symm
    have hn2 : ¬ fetched <+: op.key := fun h => hmm (hP.free hl hpair h)
    obtain ⟨c, ka, kb, r, s, ek, el, hne, hcommon⟩ := commonLen_split hn1 hn2
    rw [rootCommon_eq hn1 hn2, hcommon]
    have hlen := hP.len hpair
    have ht : op.key.take c.length = c := by rw [ek]; simp
    have hc : c.length < maxKeyLen := by
      rw [ek] at hlen
      simp only [List.length_append] at hlen
      omega
    simp only [bind, Except.bind, ht]
    have hka : keyAt op.key c.length = .ok ka := by rw [ek]; exact keyAt_append rfl
    have hkb : keyAt fetched c.length = .ok kb := by rw [el]; exact keyAt_append rfl
    rcases splitLeaf_build (key := op.key) (lk := fetched) (val := value) (lv := lv) (c := c) hcore ha hc hne with
      h | ⟨n, st1, m, h1, h2, h3, h4⟩
    · left; rw [h]
    rw [h1]
    simp only [hka, hkb]
    rw [hcl, updateLeafKey_buildLeaf, h2]
    refine .inr ⟨_, _, rfl, ?_, ?_⟩
    · rw [priv_one n (2 + prefixSlots c.length) rfl]; exact h3
    · unfold UBlt
      rw [hk]
      simp only
      intro lk' lv' e
      injection e with e1 e2
      subst e1 e2
      exact .inr ⟨hmm, c, n, ⟨ka, kb, r, s, by simpa using ek, by simpa using el, hne, h4⟩, by rw [hcl]⟩

end

section
variable {cm : Commit} (hcore : CoreN P st t (fun x => N0 x + cm.priv x)) (hb : UBlt P st t op value cm (pathOf C) pfx big ch)
include hP hpair hf hcore hb

omit hP in
theorem cmtU_empty (hk : op.kind = .replaceEmptyRootWithLeaf) : UOut P st t N0 op value cm.priv (st.commit cm) := by
  unfold UFactAt at hf
  unfold UBlt at hb
  rw [hk] at hf hb
  obtain ⟨rfl, hh⟩ := hf
  simp only at hb
  have hroot : st.root = 0 := hcore.root
  have hkey : op.k = op.key.headD 0 := by
    cases hkk : op.key with
    | nil => simp [hkk] at hh
    | cons x r => simp [hkk] at hh; simp [hh]
  have hw : buildLeaf op.k value = rootWord (.leaf op.key (trunc55 value)) := by simp [rootWord, hkey]
  have hfin := root_pub hcore rfl
    (t1 := .leaf op.key (trunc55 value)) trivial ⟨List.nil_prefix, hpair⟩ trivial (fun x => Nat.zero_le _)
  refine UOut.okRoot (fun x => by rw [hb]; exact Nat.le_refl _) hfin (by simp [UpdOp.unl, hk]) ?_ ?_ (.inl ⟨rfl, fun v h => h⟩) ⟨fun _ => trivial, .of_not_node rfl⟩
  · rw [hb, commit_hit (show st.load .root = 0 from hroot), hw]
  · intro k v
    simp only [T.Has, and_false, or_false]
    constructor
    · rintro ⟨rfl, rfl⟩; exact ⟨rfl, rfl⟩
    · rintro ⟨rfl, rfl⟩; exact ⟨rfl, rfl⟩

theorem cmtU_rootNode (hk : op.kind = .replaceLeafRootWithNode) : UOut P st t N0 op value cm.priv (st.commit cm) := by
  unfold UFactAt at hf
  unfold UBlt at hb
  rw [hk] at hf hb
  obtain ⟨lk, lv, rfl, hcl, hh, hne⟩ := hf
  obtain ⟨n, hh, hcm⟩ := hb lk lv rfl
  have hl : P lk lv := hcore.wf.2
  have hroot : st.load .root = op.currentLeaf := by rw [hcl]; exact hcore.root
  obtain ⟨t1, h1, h2, h3, h4, h5, h6, h7, h8, h9, h10⟩ := hh.facts hP hpair hl
  have hpr : cm.priv = seg n 2 := priv_one n 2 (by rw [hcm])
  have hfin := root_pub hcore rfl h1 h3 h2 (fun x => by rw [hpr]; exact Nat.le_of_eq (h4 x))
  refine UOut.okRoot (fun x => by rw [hpr, h4 x]; exact Nat.le_of_eq (Nat.zero_add _)) hfin (by simp [UpdOp.unl, hk]) ?_ h5 (.inl ⟨rfl, h6⟩) ⟨fun _ => h7, .of_not_node rfl⟩
  rw [hcm, commit_hit hroot, h10]
  rfl

theorem cmtU_rootUpdate (hk : op.kind = .rootLeafUpdate) : UOut P st t N0 op value cm.priv (st.commit cm) := by
  unfold UFactAt at hf
  unfold UBlt at hb
  rw [hk] at hf hb
  obtain ⟨lk, lv, rfl, hcl, hh, hkk, hv⟩ := hf
  have hl : P lk lv := hcore.wf.2
  have hroot : st.load .root = op.currentLeaf := by rw [hcl]; exact hcore.root
  rcases hb lk lv rfl with ⟨rfl, hcm⟩ | ⟨hmm, c, n, hh, hcm⟩
  · have hw : buildLeaf op.k value = rootWord (.leaf op.key (trunc55 value)) := by simp [rootWord, ← hkk]
    have hfin := root_pub hcore rfl
      (t1 := .leaf op.key (trunc55 value)) trivial ⟨List.nil_prefix, hpair⟩ trivial (fun x => Nat.zero_le _)
    refine UOut.okRoot (fun x => by rw [hcm]; exact Nat.le_refl _) hfin (by simp [UpdOp.unl, hk]) ?_ ?_ (.inr ⟨rfl, lv, rfl, rfl⟩) ⟨fun _ => trivial, .of_not_node rfl⟩
    · rw [hcm, commit_hit hroot, hw]
    · intro k v
      simp only [T.Has]
      constructor
      · rintro ⟨rfl, rfl⟩; exact .inl ⟨rfl, rfl⟩
      · rintro (⟨rfl, rfl⟩ | ⟨h1, rfl, h2⟩)
        · exact ⟨rfl, rfl⟩
        · exact absurd rfl h1
  · obtain ⟨t1, h1, h2, h3, h4, h5, h6, h7, h8, h9, h10⟩ := hh.facts hP hpair hl
    have hpr : cm.priv = seg n (2 + prefixSlots c.length) := priv_one n _ (by rw [hcm])
    have hfin := root_pub hcore rfl h1 h3 h2 (fun x => by rw [hpr]; exact Nat.le_of_eq (h4 x))
    refine UOut.okRoot (fun x => by rw [hpr, h4 x]; show 0 + _ ≤ _; omega) hfin (by simp [UpdOp.unl, hk]) ?_ h5 (.inl ⟨rfl, h6⟩) ⟨fun _ => h7, .of_not_node rfl⟩
    rw [hcm, commit_hit hroot, h10]

end

end

theorem NodeAt.child_plug {t C node parent nodePtr raw pfx big ch} (h : NodeAt t C node parent nodePtr raw pfx big ch)
    (k : UInt8) : t = plug (C ++ [⟨node, pfx, big, ch, k⟩]) (ch k) := by
  have hn : Norm (C ++ [⟨node, pfx, big, ch, k⟩]) (ch k) := by
    intro f hf
    have : (⟨node, pfx, big, ch, k⟩ : Frame) = f := by simpa using hf
    subst this
    rfl
  rw [plug_last hn]; exact h.tree

theorem pathOf_snoc (C : Ctx) (f : Frame) : pathOf (C ++ [f]) = pathOf C ++ f.pfx ++ [f.c] := by
  simp [pathOf]

/-- The word in a child slot. -/
theorem NodeAt.kid {P st t C node parent nodePtr raw pfx big ch N0} (hcore : CoreN P st t N0)
    (hat : NodeAt t C node parent nodePtr raw pfx big ch) {k : UInt8} (hk : big = true ∨ (ch k).isEmpty = false) :
    st.mem (childSlot node pfx big ch k) = wordOf k (ch k) :=
  (hat.core hcore).2.1.1.kid k hk

theorem St.cas_hit {st : St} {p old new} (h : st.load p = old) : st.cas p old new = (true, st.store p new) := by
  unfold St.cas; rw [if_pos h]

theorem St.cas_miss {st : St} {p old new} (h : st.load p ≠ old) : st.cas p old new = (false, st) := by
  unfold St.cas; rw [if_neg h]

/-! ## In-place kinds -/

section
variable {P : Key → Word → Prop} {a : Nat} {st : St} {t : T} {op : UpdOp} {fetched : Key} {isMatch : Bool} {value : Word}
  {N0 : Nat → Nat} {C : Ctx} {pfx : List UInt8} {big : Bool} {ch : UInt8 → T}
  (hP : KeysOK P) (hpair : P op.key (trunc55 value)) (hf : UFactAt P t op C pfx big ch)

section
variable (hcore : CoreN P st t N0) (ha : a < st.nalloc)
include hcore

theorem bldU_insert256 (hk : op.kind = .nodeLeafInsert256) :
    UMade P a st t N0 op value (pathOf C) pfx big ch (buildU st a op fetched isMatch value) := by
  refine UMade.none hcore (by unfold buildU; rw [hk]; rfl) rfl ?_
  unfold UBlt
  rw [hk]

include hP hpair hf ha

theorem bldU_update (hk : op.kind = .nodeLeafUpdate ∨ op.kind = .nodeLeafUpdate256)
    (hfe : ∀ lk lv, P lk lv → trunc55 lv = op.value → fetched = lk) (hm : isMatch = decide (fetched = op.key)) :
    UMade P a st t N0 op value (pathOf C) pfx big ch (buildU st a op fetched isMatch value) := by
  have hf' : ∃ lk lv, ULeaf P t op C pfx big ch lk lv := by
    unfold UFactAt at hf
    rcases hk with hk | hk
    · rw [hk] at hf
      exact hf.2
    · rw [hk] at hf
      exact hf.2
  clear hf
  obtain ⟨lk, lv, hin⟩ := hf'
  have hfl : fetched = lk := hfe lk lv hin.pair hin.value.symm
  subst hfl
  -- both kinds execute the same code
  have hcode : buildU st a op fetched isMatch value = (if isMatch then do
      return ({ ptr := op.leafPtr, exp := some op.currentLeaf, new := buildLeaf op.k value,
                ok := { unl := .two op.node op.parent }, ko := { unl := .two op.node op.parent } }, st)
    else do
      let prefixLen := commonLen (op.key.drop (op.depth + 1)) (fetched.drop (op.depth + 1))
      let i := op.depth + 1 + prefixLen
      let ka ← keyAt op.key i
      let kb ← keyAt fetched i
      let (newNode, data, st) ← st.allocNodeP a 2 ((op.key.drop (op.depth + 1)).take prefixLen)
      let m ← addSortedChildren st.mem data (buildLeaf ka value) (updateLeafKey op.currentLeaf kb)
      return ({ ptr := op.leafPtr, exp := some op.currentLeaf, new := buildNode op.k newNode 2 prefixLen,
                nodes := [(newNode, 2 + prefixSlots prefixLen)],
                ok := { unl := .two op.node op.parent, items := 1 }, ko := { unl := .two op.node op.parent } },
              { st with mem := m })) := by
    unfold buildU
    rcases hk with hk | hk <;> rw [hk]
  have hblt : ∀ (st : St) (cm : Commit), (∀ lk lv, P lk lv → op.currentLeaf = buildLeaf op.k lv → op.value = trunc55 lv →
      pathOf C ++ pfx ++ [op.k] <+: lk →
      (lk = op.key ∧ cm = { ptr := op.leafPtr, exp := some op.currentLeaf, new := buildLeaf op.k value,
                            ok := { unl := .two op.node op.parent }, ko := { unl := .two op.node op.parent } }) ∨
      (lk ≠ op.key ∧ ∃ c n, Halves st (pathOf C ++ pfx ++ [op.k]) op.key value lk lv c n ∧
        cm = { ptr := op.leafPtr, exp := some op.currentLeaf, new := buildNode op.k n 2 c.length,
               nodes := [(n, 2 + prefixSlots c.length)],
               ok := { unl := .two op.node op.parent, items := 1 }, ko := { unl := .two op.node op.parent } })) →
      UBlt P st t op value cm (pathOf C) pfx big ch := by
    intro st cm h
    unfold UBlt
    rcases hk with hk | hk <;> (rw [hk]; exact h)
  rw [hcode]
  clear hcode
  by_cases hmm : fetched = op.key
  · have : isMatch = true := by simp [hm, hmm]
    rw [if_pos this]
    refine UMade.none hcore rfl rfl (hblt _ _ fun lk' lv' hp' _ hv' _ => .inl ⟨?_, rfl⟩)
    rw [← hfe lk' lv' hp' hv'.symm, hmm]
  · have : ¬ isMatch = true := by simp [hm, hmm]
    rw [if_neg this]
    have hn1 : ¬ op.key <+: fetched := fun h => hmm (hP.free hpair hin.pair h).symm
    have hn2 : ¬ fetched <+: op.key := fun h => hmm (hP.free hin.pair hpair h)
    have hd1 : op.depth + 1 = (pathOf C ++ pfx ++ [op.k]).length := by rw [hin.depth]; simp [Nat.add_assoc]
    have ek0 := prefix_drop hin.path
    have el0 := prefix_drop hin.lkey
    rw [← hd1] at ek0 el0
    have hr1 : ¬ op.key.drop (op.depth + 1) <+: fetched.drop (op.depth + 1) := by
      intro h
      apply hn1
      rw [ek0, el0]
      exact (List.prefix_append_right_inj _).2 h
    have hr2 : ¬ fetched.drop (op.depth + 1) <+: op.key.drop (op.depth + 1) := by
      intro h
      apply hn2
      rw [ek0, el0]
      exact (List.prefix_append_right_inj _).2 h
    obtain ⟨c, ka, kb, r, s, ek, el, hne, hcommon⟩ := commonLen_split hr1 hr2
    rw [ek] at ek0
    rw [el] at el0
    rw [← List.append_assoc] at ek0 el0
    have hlen := hP.len hpair
    have hc : c.length < maxKeyLen := by
      rw [ek0] at hlen
      simp only [List.length_append] at hlen
      omega
    have ht : (op.key.drop (op.depth + 1)).take c.length = c := by rw [ek]; simp
    have hka : keyAt op.key (op.depth + 1 + c.length) = .ok ka := by
      rw [ek0]; exact keyAt_append (by rw [List.length_append, ← hd1])
    have hkb : keyAt fetched (op.depth + 1 + c.length) = .ok kb := by
      rw [el0]; exact keyAt_append (by rw [List.length_append, ← hd1])
    simp only [hcommon, ht, bind, Except.bind, hka, hkb]
    rcases splitLeaf_build (key := op.key) (lk := fetched) (val := value) (lv := lv) (c := c) hcore ha hc hne with
      h | ⟨n, st1, m, h1, h2, h3, h4⟩
    · left; rw [h]
    rw [h1]
    simp only
    rw [hin.leaf, updateLeafKey_buildLeaf, h2]
    simp only
    refine .inr ⟨_, _, rfl, ?_, hblt _ _ fun lk' lv' hp' hc' hv' _ => ?_⟩
    · rw [priv_one n (2 + prefixSlots c.length) rfl]; exact h3
    · have e1 : fetched = lk' := hfe lk' lv' hp' hv'.symm
      subst e1
      have e2 : ∀ b, buildLeaf b lv = buildLeaf b lv' := by
        intro b
        rw [← wordOf_leaf_trunc b fetched lv, ← wordOf_leaf_trunc b fetched lv', ← hin.value, hv']
      refine .inr ⟨hmm, c, n, ⟨ka, kb, r, s, ek0, el0, hne, h4.words (fun x => ?_) (fun x => ?_)⟩, by rw [hin.leaf]⟩
      · unfold ch2
        by_cases hx : x = kb
        · subst hx; rw [upd_same, upd_same]; exact e2 x
        · rw [upd_of_ne _ _ hx, upd_of_ne _ _ hx]
      · unfold ch2
        by_cases hx : x = kb
        · subst hx; rw [upd_same, upd_same]; rfl
        · rw [upd_of_ne _ _ hx, upd_of_ne _ _ hx]

end

section
variable {cm : Commit} (hcore : CoreN P st t (fun x => N0 x + cm.priv x)) (hb : UBlt P st t op value cm (pathOf C) pfx big ch)
include hP hpair hf hcore hb

omit hP in
theorem cmtU_insert256 (hk : op.kind = .nodeLeafInsert256) : UOut P st t N0 op value cm.priv (st.commit cm) := by
  unfold UFactAt at hf
  unfold UBlt at hb
  rw [hk] at hf hb
  obtain ⟨rfl, hin, hch, hptr⟩ := hf
  have hload : st.load op.leafPtr = 0 := by
    rw [hptr]
    show st.mem _ = 0
    rw [hin.node.kid hcore (.inl rfl), hch]
    rfl
  have h2 := inplace_pub (t1 := .leaf op.key (trunc55 value)) (k := op.k) hcore hin.node (mem_lockList2 op.node op.parent)
    (.inl rfl) (.inl rfl) (by rw [hch]; rfl) trivial ⟨hin.path, hpair⟩ trivial (fun _ => Nat.zero_le _)
  have htree := hin.node.child_plug op.k
  have hpath : pathOf (C ++ [⟨op.node, pfx, true, ch, op.k⟩]) <+: op.key := by
    rw [pathOf_snoc]; exact hin.path
  have hwf := hcore.wf
  rw [hch] at htree
  rw [htree] at hwf
  refine UOut.okTwo (inplace_kept htree (.inl rfl) fun x => by rw [hb]; exact Nat.le_refl _) h2 (by simp [UpdOp.unl, hk]) ?_ ?_ (.inl ⟨rfl, ?_⟩) ⟨fun hd => Dense_plug (htree ▸ hd) rfl trivial, htree ▸ (KeepBig.of_not_node rfl).plug _⟩
  · rw [hb, commit_hit hload, wordOf_leaf_trunc, ← hptr]
  · rw [htree]
    apply Upd1.plug hwf hpath
    intro k v
    simp only [T.Has, and_false, or_false]
    constructor
    · rintro ⟨rfl, rfl⟩; exact ⟨rfl, rfl⟩
    · rintro ⟨rfl, rfl⟩; exact ⟨rfl, rfl⟩
  · intro v
    rw [htree]
    exact not_has_plug hwf hpath (fun h => h)

theorem cmtU_update (hk : op.kind = .nodeLeafUpdate ∨ op.kind = .nodeLeafUpdate256) :
    UOut P st t N0 op value cm.priv (st.commit cm) := by
  have hunl : op.unl = .two op.node op.parent := by rcases hk with hk | hk <;> simp [UpdOp.unl, hk]
  have hf' : ∃ lk lv, ULeaf P t op C pfx big ch lk lv ∧ (big = true → op.kind = .nodeLeafUpdate256) := by
    unfold UFactAt at hf
    rcases hk with hk | hk
    · rw [hk] at hf
      obtain ⟨rfl, lk, lv, h⟩ := hf
      exact ⟨lk, lv, h, by simp⟩
    · rw [hk] at hf
      obtain ⟨rfl, lk, lv, h⟩ := hf
      exact ⟨lk, lv, h, fun _ => hk⟩
  clear hf
  obtain ⟨lk, lv, hin, hbig⟩ := hf'
  have hb' : (lk = op.key ∧ cm = { ptr := op.leafPtr, exp := some op.currentLeaf, new := buildLeaf op.k value,
                                   ok := { unl := .two op.node op.parent }, ko := { unl := .two op.node op.parent } }) ∨
      (lk ≠ op.key ∧ ∃ c n, Halves st (pathOf C ++ pfx ++ [op.k]) op.key value lk lv c n ∧
        cm = { ptr := op.leafPtr, exp := some op.currentLeaf, new := buildNode op.k n 2 c.length,
               nodes := [(n, 2 + prefixSlots c.length)],
               ok := { unl := .two op.node op.parent, items := 1 }, ko := { unl := .two op.node op.parent } }) := by
    unfold UBlt at hb
    rcases hk with hk | hk
    · rw [hk] at hb
      exact hb lk lv hin.pair hin.leaf hin.value hin.lkey
    · rw [hk] at hb
      exact hb lk lv hin.pair hin.leaf hin.value hin.lkey
  have hload : st.load op.leafPtr = wordOf op.k (ch op.k) := by
    rw [hin.ptr]
    show st.mem _ = _
    apply hin.node.kid hcore
    rcases hin.child with h | h
    · exact .inr (by rw [h]; rfl)
    · exact .inl h.1
  have htree := hin.node.child_plug op.k
  have hpath : pathOf (C ++ [⟨op.node, pfx, big, ch, op.k⟩]) <+: op.key := by
    rw [pathOf_snoc]; exact hin.path
  have hwf := hcore.wf
  rcases hin.child with hch | ⟨hbb, hch⟩
  · -- the leaf is still there
    have hhit : st.load op.leafPtr = op.currentLeaf := by rw [hload, hin.leaf, hch]; rfl
    rw [hch] at htree
    rw [htree] at hwf
    rcases hb' with ⟨rfl, hcm⟩ | ⟨hmm, c, n, hh, hcm⟩
    · have h2 := inplace_pub (t1 := .leaf op.key (trunc55 value)) (k := op.k) hcore hin.node
        (mem_lockList2 op.node op.parent) (.inr rfl) (.inr (by rw [hch]; rfl)) (by rw [hch]; rfl) trivial
        ⟨hin.path, hpair⟩ trivial (fun _ => Nat.zero_le _)
      refine UOut.okTwo (inplace_kept (t1 := .leaf op.key (trunc55 value)) htree (.inr rfl) fun x => by rw [hcm]; exact Nat.le_refl _) h2 hunl ?_ ?_ (.inr ⟨rfl, ?_⟩) ⟨fun hd => Dense_plug (htree ▸ hd) rfl trivial, htree ▸ (KeepBig.of_not_node rfl).plug _⟩
      · rw [hcm, commit_hit hhit, wordOf_leaf_trunc, ← hin.ptr]
      · rw [htree]
        apply Upd1.plug hwf hpath
        intro k v
        simp only [T.Has]
        constructor
        · rintro ⟨rfl, rfl⟩; exact .inl ⟨rfl, rfl⟩
        · rintro (⟨rfl, rfl⟩ | ⟨h1, rfl, h2⟩)
          · exact ⟨rfl, rfl⟩
          · exact absurd rfl h1
      · refine ⟨lv, ?_⟩
        rw [htree, has_plug]
        exact .inr ⟨rfl, rfl⟩
    · obtain ⟨t1, h1, h2, h3, h4, h5, h6, h7, h8, h9, h10⟩ := hh.facts hP hpair hin.pair
      have hpr : cm.priv = seg n (2 + prefixSlots c.length) := priv_one n _ (by rw [hcm])
      have g2 := inplace_pub (k := op.k) hcore hin.node (mem_lockList2 op.node op.parent) (.inr h8)
        (.inr (by rw [hch]; rfl)) (by rw [hch]; rfl) h1 h3 h2 (fun x => by rw [hpr]; exact Nat.le_of_eq (h4 x))
      refine UOut.okTwo (inplace_kept htree (.inr (by rw [h8]; rfl)) fun x => by rw [hpr, h4 x]; show 0 + _ ≤ _; omega) g2 hunl ?_ ?_ (.inl ⟨rfl, ?_⟩) ⟨fun hd => Dense_plug (htree ▸ hd) (by rw [h8]) h7, htree ▸ (KeepBig.of_not_node rfl).plug _⟩
      · rw [hcm, commit_hit hhit, h9, ← hin.ptr]
      · rw [htree]
        exact Upd1.plug hwf hpath h5
      · intro v
        rw [htree]
        exact not_has_plug hwf hpath (h6 v)
  · -- it was deleted concurrently
    right
    subst hbb
    have hmiss : st.load op.leafPtr ≠ op.currentLeaf := by
      rw [hload, hin.leaf, hch]
      exact fun e => buildLeaf_ne_zero _ _ e.symm
    refine ⟨⟨hbig rfl, hmiss⟩, ?_⟩
    rcases hb' with ⟨_, hcm⟩ | ⟨_, c, n, _, hcm⟩
    · rw [hcm, commit_miss hmiss, hunl]
    · rw [hcm, commit_miss hmiss, hunl]

end

end

/-! ## Inserting a leaf into a copy of the node -/

theorem insertLeaf_facts {P : Key → Word → Prop} {key : Key} {val : Word} {p pfx : Key} {k : UInt8} {ch : UInt8 → T}
    {n n' : Nat} {big big' : Bool} {L : Nat → Prop}
    (hwf : (T.node n pfx big ch).WF P p) (hch : ch k = .empty) (hk : P key val) (hpath : p ++ pfx ++ [k] <+: key)
    (hc : big' = false → 1 ≤ cntOf (present ch) ∧ cntOf (present ch) ≤ 126) (hL : L n) :
    (T.node n' pfx big' (upd ch k (.leaf key val))).WF P p ∧
    Upd1 (.node n pfx big ch) (.node n' pfx big' (upd ch k (.leaf key val))) key val ∧
    (∀ v, ¬ (T.node n pfx big ch).Has key v) ∧
    Stable (.node n pfx big ch) (.node n' pfx big' (upd ch k (.leaf key val))) L ∧
    (∀ c, KeepAt (pfx ++ [c]) (ch c) (.node n' pfx big' (upd ch k (.leaf key val)))) ∧
    ((∀ x, 0 < seg n' (nodeSize pfx big' (upd ch k (.leaf key val))) x → (T.node n pfx big ch).cover x = 0) →
      Keep (.node n' pfx big' (upd ch k (.leaf key val))) (.node n pfx big ch)) := by
  have hno : ∀ c v, ¬ (ch c).Has key v := by
    intro c v hv
    by_cases hck : c = k
    · subst hck; rw [hch] at hv; exact hv
    · have h1 := ((hwf.2.2 c).has hv).1
      obtain ⟨r, e⟩ := hpath
      obtain ⟨s, e'⟩ := h1
      rw [← e] at e'
      apply hck
      have e2 : (p ++ pfx) ++ c :: s = (p ++ pfx) ++ k :: r := by simpa using e'
      exact (append_cons_inj e2).1
  refine ⟨⟨hwf.1, ?_, ?_⟩, ?_, ?_, ?_, ?_, ?_⟩
  · intro hb
    rw [cntOf_upd_insert (by rw [hch]; rfl) rfl]
    have := hc hb
    omega
  · intro c
    by_cases hck : c = k
    · subst hck; rw [upd_same]; exact ⟨hpath, hk⟩
    · rw [upd_of_ne _ _ hck]; exact hwf.2.2 c
  · intro k' v'
    simp only [T.Has]
    constructor
    · rintro ⟨c, h⟩
      by_cases hck : c = k
      · subst hck
        rw [upd_same] at h
        exact .inl ⟨h.1.symm, h.2.symm⟩
      · rw [upd_of_ne _ _ hck] at h
        refine .inr ⟨?_, c, h⟩
        rintro rfl
        exact hno c v' h
    · rintro (⟨rfl, rfl⟩ | ⟨h1, c, h2⟩)
      · exact ⟨k, by rw [upd_same]; exact ⟨rfl, rfl⟩⟩
      · refine ⟨c, ?_⟩
        by_cases hck : c = k
        · subst hck; rw [hch] at h2; exact h2.elim
        · rw [upd_of_ne _ _ hck]; exact h2
  · rintro v ⟨c, h⟩
    exact hno c v h
  · apply Stable_node hL
    intro c hcn r t _ hat
    have hck : c ≠ k := by rintro rfl; rw [hch] at hcn; simp at hcn
    apply At.down
    rw [upd_of_ne _ _ hck]
    exact hat
  · intro c
    by_cases hck : c = k
    · subst hck; rw [hch]; exact .of_not_node rfl
    · refine .sub (At.down ?_)
      rw [upd_of_ne _ _ hck]
      exact At.here _
  · intro hn
    refine .node (fun x h1 h2 => hn x (by unfold seg; rw [if_pos ⟨h1, h2⟩]; omega)) fun c => ?_
    by_cases hck : c = k
    · subst hck; rw [upd_same]; exact .of_not_node rfl
    · rw [upd_of_ne _ _ hck]
      refine .sub ?_
      simpa using At.down (a := n) (pfx := pfx) (big := big) (At.here (ch c))

section
variable {P : Key → Word → Prop} {a : Nat} {st : St} {t : T} {op : UpdOp} {fetched : Key} {isMatch : Bool} {value : Word}
  {N0 : Nat → Nat} {C : Ctx} {pfx : List UInt8} {big : Bool} {ch : UInt8 → T}
  (hP : KeysOK P) (hpair : P op.key (trunc55 value)) (hf : UFactAt P t op C pfx big ch)

section
variable (hcore : CoreN P st t N0) (ha : a < st.nalloc)
include hcore

include hf ha

theorem bldU_insert (hk : op.kind = .nodeLeafInsert) :
    UMade P a st t N0 op value (pathOf C) pfx big ch (buildU st a op fetched isMatch value) := by
  unfold UFactAt at hf
  rw [hk] at hf
  obtain ⟨rfl, hin, hch, hpos⟩ := hf
  obtain ⟨hinb, hrepr, hwfn, hcov⟩ := hin.node.core hcore
  have hcount : op.count = cntOf (present ch) := hin.count
  have hplen : pfx.length < maxKeyLen := by
    have := hwfn.1.1
    rw [List.length_append] at this
    omega
  have hcnt := hwfn.2.1 rfl
  have hcv0 : ∀ x, 0 < (T.node op.node pfx false ch).cover x → 0 < t.cover x + N0 x := fun x h => by
    have := hcov x
    omega
  by_cases hc : op.count < fullAllocAfter
  · have hc' : cntOf (present ch) < 127 := by rw [← hcount]; exact hc
    rcases insert_spec (k := op.k) (tk := .leaf op.key (trunc55 value)) hcore ha hplen hcnt.1 hc' hinb hrepr hcv0
      (by rw [hch]; rfl) rfl trivial with h | ⟨n, st1, m, h1, h2, h3, h4, h5⟩
    · left
      unfold buildU
      rw [hk]
      simp only [if_pos hc]
      rw [hin.pre, hcount, h]
      rfl
    have hcode : buildU st a op fetched isMatch value = .ok (
        { ptr := op.nodePtr, new := buildNode (keyByte op.raw) n (op.count + 1) pfx.length,
          nodes := [(n, op.count + 1 + prefixSlots pfx.length)],
          ok := { unl := .two op.node op.parent, free := some (op.node, op.count + op.prefixSlots), items := 1 } },
        { st1 with mem := m }) := by
      unfold buildU
      rw [hk]
      simp only [if_pos hc]
      rw [wordOf_leaf_trunc] at h2
      rw [hin.pre, hpos, hin.data, hin.slots, hcount, h1]
      revert h2
      simp only [bind, Except.bind, pure, Except.pure]
      cases Slice.words st1.mem ⟨op.node, blockSlots - op.node % blockSlots⟩
            (prefixSlots pfx.length + rankOf (present ch) op.k) with
      | error e => intro h; cases h
      | ok ws1 =>
        simp only
        cases Slice.set (Slice.copy st1.mem ⟨n, blockSlots - n % blockSlots⟩ ws1) ⟨n, blockSlots - n % blockSlots⟩
          (prefixSlots pfx.length + rankOf (present ch) op.k) (buildLeaf op.k value) with
        | error e => intro h; cases h
        | ok m1 =>
          simp only
          cases (⟨op.node, blockSlots - op.node % blockSlots⟩ : Slice).drop
              (prefixSlots pfx.length + rankOf (present ch) op.k) with
          | error e => intro h; cases h
          | ok src2 =>
            simp only
            cases src2.words m1 (cntOf (present ch) - rankOf (present ch) op.k) with
            | error e => intro h; cases h
            | ok ws2 =>
              simp only
              cases (⟨n, blockSlots - n % blockSlots⟩ : Slice).drop
                  (prefixSlots pfx.length + rankOf (present ch) op.k + 1) with
              | error e => intro h; cases h
              | ok dst2 =>
                simp only
                intro h
                cases h
                rfl
    have hsz : nodeSize pfx false (upd ch op.k (.leaf op.key (trunc55 value))) = op.count + 1 + prefixSlots pfx.length := by
      simp [nodeSize, cnt, hcount, cntOf_upd_insert (ch := ch) (k := op.k) (t := .leaf op.key (trunc55 value)) (by rw [hch]; rfl) rfl]
    refine .inr ⟨_, _, hcode, ?_, ?_⟩
    · rw [priv_one n _ rfl, ← hsz]; exact h3
    · unfold UBlt
      rw [hk]
      exact ⟨n, false, by simp [hc], .of h4 h5, rfl⟩
  · rcases grow_spec (k := op.k) (tk := .leaf op.key (trunc55 value)) hcore ha hplen hinb hrepr hcv0
      (by rw [hch]; rfl) trivial with h | ⟨n, st1, m, h1, h2, h3, h4, h5⟩
    · left
      unfold buildU
      rw [hk]
      simp only [if_neg hc]
      rw [hin.pre, h]
      rfl
    have hcode : buildU st a op fetched isMatch value = .ok (
        { ptr := op.nodePtr, new := buildNode (keyByte op.raw) n 256 pfx.length,
          nodes := [(n, 256 + prefixSlots pfx.length)],
          ok := { unl := .two op.node op.parent, free := some (op.node, op.count + op.prefixSlots), items := 1 } },
        { st1 with mem := m }) := by
      unfold buildU
      rw [hk]
      simp only [if_neg hc]
      rw [wordOf_leaf_trunc] at h2
      rw [hin.pre, hin.data, hin.slots, hcount, h1]
      revert h2
      simp only [bind, Except.bind, pure, Except.pure]
      cases Slice.words st1.mem ⟨n + prefixSlots pfx.length,
            blockSlots - n % blockSlots - prefixSlots pfx.length⟩ 256 with
      | error e => intro h; cases h
      | ok ws1 =>
        simp only
        cases (⟨op.node, blockSlots - op.node % blockSlots⟩ : Slice).drop (prefixSlots pfx.length) with
        | error e => intro h; cases h
        | ok src =>
          simp only
          cases Slice.set (writeWords st1.mem (n + prefixSlots pfx.length) (List.replicate 256 0))
            ⟨n + prefixSlots pfx.length, blockSlots - n % blockSlots - prefixSlots pfx.length⟩ op.k.toNat
              (buildLeaf op.k value) with
          | error e => intro h; cases h
          | ok m1 =>
            simp only
            cases src.words m1 (cntOf (present ch)) with
            | error e => intro h; cases h
            | ok ws =>
              simp only
              intro h
              rw [h]
    refine .inr ⟨_, _, hcode, ?_, ?_⟩
    · rw [priv_one n _ rfl]; exact h3
    · unfold UBlt
      rw [hk]
      exact ⟨n, true, by simp [hc], .of h4 h5, rfl⟩

end

section
variable {cm : Commit} (hcore : CoreN P st t (fun x => N0 x + cm.priv x)) (hb : UBlt P st t op value cm (pathOf C) pfx big ch)
include hP hpair hf hcore hb

omit hP in
theorem cmtU_insert (hk : op.kind = .nodeLeafInsert) : UOut P st t N0 op value cm.priv (st.commit cm) := by
  have hunl : op.unl = .two op.node op.parent := by simp [UpdOp.unl, hk]
  unfold UFactAt at hf
  unfold UBlt at hb
  rw [hk] at hf hb
  obtain ⟨rfl, hin, hch, hpos⟩ := hf
  obtain ⟨n, big', hbig, hmade, hcm⟩ := hb
  obtain ⟨hinb, hrepr, hwfn, hcov⟩ := hin.node.core hcore
  have htree := hin.node.tree
  have hwf := hcore.wf
  rw [htree] at hwf
  have hpath : pathOf C <+: op.key := (List.prefix_append _ _).trans ((by simp : pathOf C ++ (pfx ++ [op.k]) = pathOf C ++ pfx ++ [op.k]) ▸ hin.path)
  have hcount : op.count = cntOf (present ch) := hin.count
  have hsz : nodeSize pfx false ch = cntOf (present ch) + prefixSlots pfx.length := rfl
  have hcnt := hwfn.2.1 rfl
  have hcw : cnt big' (upd ch op.k (.leaf op.key (trunc55 value))) = if big' = true then 256 else op.count + 1 := by
    unfold cnt
    rw [hcount, cntOf_upd_insert (ch := ch) (k := op.k) (t := .leaf op.key (trunc55 value)) (by rw [hch]; rfl) rfl]
  have hpr : cm.priv = seg n (nodeSize pfx big' (upd ch op.k (.leaf op.key (trunc55 value)))) := by
    apply priv_one
    rw [hcm, nodeSize, hcw]
  have hcover : ∀ x, (T.node n pfx big' (upd ch op.k (.leaf op.key (trunc55 value)))).cover x +
      seg op.node (op.count + op.prefixSlots) x = (T.node op.node pfx false ch).cover x + cm.priv x := by
    intro x
    have h := sumB_cover_upd ch op.k (.leaf op.key (trunc55 value)) x
    rw [hpr, cover_node_eq, cover_node_eq, hsz, hcount, hin.slots]
    have e1 : (T.leaf op.key (trunc55 value)).cover x = 0 := rfl
    have e2 : (ch op.k).cover x = 0 := by rw [hch]; rfl
    omega
  obtain ⟨w1, w2, w3, w4, w5, w6⟩ := insertLeaf_facts (n' := n) (big' := big') (L := fun n => n ∈ lockList2 op.node op.parent)
    hwfn hch hpair hin.path (fun h => by
      have : op.count < fullAllocAfter := by
        apply Decidable.of_not_not
        intro hc
        have := hbig.2 hc
        simp [h] at this
      unfold fullAllocAfter at this
      omega) (mem_lockList2 _ _)
  obtain ⟨h4, h5⟩ := hmade.repr (by
    intro c
    by_cases hck : c = op.k
    · subst hck; rw [upd_same]; exact ⟨trivial, trivial⟩
    · rw [upd_of_ne _ _ hck]; exact ⟨hrepr.2 c, hinb.2 c⟩)
  have hw : buildNode (keyByte op.raw) n (if big' = true then 256 else op.count + 1) pfx.length =
      holeWord C (T.node n pfx big' (upd ch op.k (.leaf op.key (trunc55 value)))) := by
    rw [holeWord_node, hin.node.byte, hcw]
  have e2 := replace_pub (D := seg op.node (op.count + op.prefixSlots)) hcore hin.node
    (fun f hf => holeParent_mem hcore hin.node hf) rfl h4 w1 h5 (fun x => Nat.le_of_eq (hcover x)) (seg_zero hinb.1.1)
    (fun x => by rw [hsz, hcount, hin.slots]; exact Nat.le_refl _) w4 hw w5 (hpr ▸ w6)
  refine UOut.okFree (replace_kept hin.node rfl fun x => Nat.le_of_eq (hcover x).symm) e2 hunl
    (hin.node.pos hcore (by rw [hsz, hcount, hin.slots])) ?_ ?_ ?_ ⟨fun hd => Dense_plug (htree ▸ hd) rfl (Dense_insert (fun hb' => by
      have hc := hbig.1 hb'
      rw [cntOf_upd_insert (by rw [hch]; rfl) rfl]; unfold fullAllocAfter at hc; omega) (Dense_plug_sub (htree ▸ hd))),
      htree ▸ (KeepBig.node (by simp) (by rw [hch]; rfl)).plug _⟩
  · rw [hcm, commit_store]
  · rw [htree]; exact Upd1.plug hwf hpath w2
  · intro v; rw [htree]; exact not_has_plug hwf hpath (w3 v)

end

end

/-! ## Splitting a prefix -/

theorem splitPrefix_facts {P : Key → Word → Prop} {key : Key} {val : Word} {p p1 p2 rest : Key} {ka kb : UInt8}
    {ch : UInt8 → T} {n n1 n2 : Nat} {big : Bool} {L : Nat → Prop}
    (hwf : (T.node n (p1 ++ kb :: p2) big ch).WF P p) (hk : P key val) (ek : key = p ++ p1 ++ ka :: rest)
    (hne : ka ≠ kb) (hL : L n) :
    (T.node n2 p1 false (ch2 ka (.leaf key val) kb (.node n1 p2 big ch))).WF P p ∧
    Upd1 (.node n (p1 ++ kb :: p2) big ch) (.node n2 p1 false (ch2 ka (.leaf key val) kb (.node n1 p2 big ch))) key val ∧
    (∀ v, ¬ (T.node n (p1 ++ kb :: p2) big ch).Has key v) ∧
    Stable (.node n (p1 ++ kb :: p2) big ch) (.node n2 p1 false (ch2 ka (.leaf key val) kb (.node n1 p2 big ch))) L ∧
    (∀ c, KeepAt (p1 ++ kb :: p2 ++ [c]) (ch c) (.node n2 p1 false (ch2 ka (.leaf key val) kb (.node n1 p2 big ch)))) ∧
    ((∀ x, 0 < seg n1 (nodeSize p2 big ch) x + seg n2 (2 + prefixSlots p1.length) x →
        (T.node n (p1 ++ kb :: p2) big ch).cover x = 0) →
      Keep (.node n2 p1 false (ch2 ka (.leaf key val) kb (.node n1 p2 big ch))) (.node n (p1 ++ kb :: p2) big ch)) := by
  have hno : ∀ v, ¬ (T.node n (p1 ++ kb :: p2) big ch).Has key v := by
    rintro v ⟨c, hv⟩
    have h1 := ((hwf.2.2 c).has hv).1
    obtain ⟨r, e⟩ := h1
    rw [ek] at e
    have e2 : (p ++ p1) ++ kb :: (p2 ++ c :: r) = (p ++ p1) ++ ka :: rest := by simpa using e
    exact hne (append_cons_inj e2).1.symm
  refine ⟨⟨?_, ?_, ?_⟩, ?_, hno, ?_, ?_, ?_⟩
  · refine ⟨?_, key, val, ka, hk, ⟨rest, by simp [ek]⟩⟩
    have := hwf.1.1
    simp only [List.length_append, List.length_cons] at this ⊢
    omega
  · intro _
    rw [cntOf_ch2 rfl rfl hne]
    omega
  · intro x
    refine ch2_forall (Q := fun x t => t.WF P (p ++ p1 ++ [x])) (ta := .leaf key val) (tb := .node n1 p2 big ch) hne
      ⟨?_, hk⟩ ⟨?_, hwf.2.1, ?_⟩ (fun _ => trivial) x
    · exact ⟨rest, by simp [ek]⟩
    · have := hwf.1
      simpa [Nat.add_assoc, Nat.add_comm, Nat.add_left_comm] using this
    · intro c
      have := hwf.2.2 c
      simpa using this
  · intro k v
    have e : (T.node n2 p1 false (ch2 ka (.leaf key val) kb (.node n1 p2 big ch))).Has k v ↔
        (T.leaf key val).Has k v ∨ (T.node n1 p2 big ch).Has k v :=
      ch2_exists (Q := fun _ t => t.Has k v) hne (fun _ h => h)
    rw [e]
    constructor
    · rintro (⟨rfl, rfl⟩ | h)
      · exact .inl ⟨rfl, rfl⟩
      · refine .inr ⟨?_, h⟩
        rintro rfl
        exact hno v h
    · rintro (⟨rfl, rfl⟩ | ⟨_, h⟩)
      · exact .inl ⟨rfl, rfl⟩
      · exact .inr h
  · apply Stable_node hL
    intro c _ r t _ hat
    have h1 : At (T.node n1 p2 big ch) (p2 ++ c :: r) t := .down hat
    have h2 : At (.node n2 p1 false (ch2 ka (.leaf key val) kb (.node n1 p2 big ch))) (p1 ++ kb :: (p2 ++ c :: r)) t := by
      apply At.down
      rw [ch2_snd]
      exact h1
    simpa using h2
  · intro c
    have h1 : At (T.node n1 p2 big ch) (p2 ++ c :: []) (ch c) := .down (.here _)
    have h2 : At (.node n2 p1 false (ch2 ka (.leaf key val) kb (.node n1 p2 big ch))) (p1 ++ kb :: (p2 ++ c :: [])) (ch c) := by
      apply At.down
      rw [ch2_snd]
      exact h1
    exact .sub (by simpa using h2)
  · intro hn
    refine .node (fun x h1 h2 => hn x ?_) fun c => ?_
    · rw [nodeSize_ch2 rfl rfl hne] at h2
      have : seg n2 (2 + prefixSlots p1.length) x = 1 := by unfold seg; rw [if_pos ⟨h1, h2⟩]
      omega
    · refine ch2_forall (Q := fun c t => KeepAt ([] ++ p1 ++ [c]) t (.node n (p1 ++ kb :: p2) big ch)) hne
        (.of_not_node rfl) ?_ (fun _ => .of_not_node rfl) c
      refine .node (fun x h1 h2 => hn x ?_) fun d => ?_
      · have : seg n1 (nodeSize p2 big ch) x = 1 := by unfold seg; rw [if_pos ⟨h1, h2⟩]
        omega
      · refine .sub ?_
        have h1 : At (T.node n (p1 ++ kb :: p2) big ch) ((p1 ++ kb :: p2) ++ d :: []) (ch d) := .down (.here _)
        simpa using h1

section
variable {P : Key → Word → Prop} {a : Nat} {st : St} {t : T} {op : UpdOp} {fetched : Key} {isMatch : Bool} {value : Word}
  {N0 : Nat → Nat} {C : Ctx} {pfx : List UInt8} {big : Bool} {ch : UInt8 → T}
  (hP : KeysOK P) (hpair : P op.key (trunc55 value)) (hf : UFactAt P t op C pfx big ch)

section
variable (hcore : CoreN P st t N0) (ha : a < st.nalloc)
include hcore

include hf ha

theorem bldU_prefixMiss (hk : op.kind = .nodePrefixMiss) :
    UMade P a st t N0 op value (pathOf C) pfx big ch (buildU st a op fetched isMatch value) := by
  unfold UFactAt at hf
  rw [hk] at hf
  obtain ⟨hin, p1, kb, p2, ka, rest, hpfx, hkey, hne, hdepth, hmis⟩ := hf
  subst hpfx
  obtain ⟨hinb, hrepr, hwfn, hcov⟩ := hin.node.core hcore
  have hcount : op.count = cnt big ch := hin.count
  have hsz : nodeSize (p1 ++ kb :: p2) big ch = cnt big ch + prefixSlots (p1 ++ kb :: p2).length := rfl
  have hl := hwfn.1.1
  simp only [List.length_append, List.length_cons] at hl
  have hcv0 : ∀ x, 0 < (T.node op.node (p1 ++ kb :: p2) big ch).cover x → 0 < t.cover x + N0 x := fun x h => by
    have := hcov x
    omega
  have hka : keyAt op.key (op.depth + op.prefixMismatch) = .ok ka := by
    rw [hkey]; exact keyAt_append (by rw [hdepth, hmis, List.length_append])
  have hkb : keyAt op.pfx op.prefixMismatch = .ok kb := by
    rw [hin.pre]; exact keyAt_append hmis
  have hdrop : op.pfx.drop (op.prefixMismatch + 1) = p2 := by
    rw [hin.pre, hmis]
    simp
  have htake : (op.key.drop op.depth).take op.prefixMismatch = p1 := by
    rw [hkey, hdepth, hmis]
    simp
  have hpl : op.pfx.length - op.prefixMismatch - 1 = p2.length := by
    rw [hin.pre, hmis]
    simp only [List.length_append, List.length_cons]
    omega
  rcases clone_spec (pfx' := p2) hcore ha (by omega) (cnt_ge hwfn) hinb hrepr hcv0 with
    h | ⟨n1, st1, m1, ws, h1, h2, h3, h4, h5, h6, h7⟩
  · left
    unfold buildU
    rw [hk]
    simp only [hka, hkb, bind, Except.bind, hdrop]
    rw [hcount, h]
  have hc1 := h5.core hcore
  rcases build2_spec (a := a) (pfx := p1) (ba := ka) (bb := kb) (ta := .leaf op.key (trunc55 value)) (tb := .node n1 p2 big ch)
    hc1 (by rw [h5.nalloc]; exact ha) (by omega) rfl rfl hne trivial h7 trivial h6 (fun x h => absurd h (Nat.lt_irrefl 0)) (fun x h => by
      have := hcov x
      rw [cover_node_eq] at h this
      omega) with g | ⟨n2, st2, m2, g1, g2, g3, g4, g5⟩
  · left
    unfold buildU
    rw [hk]
    simp only [hka, hkb, bind, Except.bind, hdrop]
    rw [hcount, h1]
    simp only
    rw [hin.data, hin.slots, h2]
    simp only
    rw [h3]
    simp only [h4, htake]
    rw [g]
  have hcode : buildU st a op fetched isMatch value = .ok (
      { ptr := op.nodePtr, new := buildNode (keyByte op.raw) n2 2 p1.length,
        nodes := [(n1, op.count + prefixSlots p2.length), (n2, 2 + prefixSlots p1.length)],
        ok := { unl := .two op.node op.parent, free := some (op.node, op.count + op.prefixSlots), items := 1 } },
      { st2 with mem := m2 }) := by
    unfold buildU
    rw [hk]
    simp only [hka, hkb, bind, Except.bind, hdrop, hpl]
    rw [hcount, h1]
    simp only
    rw [hin.data, hin.slots, h2]
    simp only
    rw [h3]
    simp only [h4, htake]
    rw [g1]
    simp only
    rw [wordOf_leaf_trunc] at g2
    have e : buildNode kb n1 (cnt big ch) p2.length = wordOf kb (.node n1 p2 big ch) := rfl
    rw [e, g2, hmis]
    rfl
  refine .inr ⟨_, _, hcode, ?_, ?_⟩
  · have := h5.trans g3
    have hsz1 : nodeSize p2 big ch = cnt big ch + prefixSlots p2.length := rfl
    simpa [Commit.priv, Nat.add_assoc, hcount, hsz1] using this
  · unfold UBlt
    rw [hk]
    have g4' : (T.node n1 p2 big ch).Repr m2 := by
      have := g4.2 kb
      rwa [ch2_snd] at this
    have g5' : (T.node n1 p2 big ch).InBlocks st2.baNext := by
      have := g5.2 kb
      rwa [ch2_snd] at this
    exact ⟨p1, kb, p2, ka, rest, n1, n2, rfl, hkey, hne, .of g4' g5', .of g4 g5, rfl⟩

end

section
variable {cm : Commit} (hcore : CoreN P st t (fun x => N0 x + cm.priv x)) (hb : UBlt P st t op value cm (pathOf C) pfx big ch)
include hP hpair hf hcore hb

omit hP in
theorem cmtU_prefixMiss (hk : op.kind = .nodePrefixMiss) : UOut P st t N0 op value cm.priv (st.commit cm) := by
  have hunl : op.unl = .two op.node op.parent := by simp [UpdOp.unl, hk]
  unfold UFactAt at hf
  unfold UBlt at hb
  rw [hk] at hf hb
  obtain ⟨hin, -⟩ := hf
  obtain ⟨p1, kb, p2, ka, rest, n1, n2, hpfx, hkey, hne, hm1, hm2, hcm⟩ := hb
  subst hpfx
  obtain ⟨hinb, hrepr, hwfn, hcov⟩ := hin.node.core hcore
  have htree := hin.node.tree
  have hwf := hcore.wf
  rw [htree] at hwf
  have hpath : pathOf C <+: op.key := ⟨p1 ++ ka :: rest, by rw [hkey]; simp⟩
  have hcount : op.count = cnt big ch := hin.count
  have hsz : nodeSize (p1 ++ kb :: p2) big ch = cnt big ch + prefixSlots (p1 ++ kb :: p2).length := rfl
  have hsz1 : nodeSize p2 big ch = cnt big ch + prefixSlots p2.length := rfl
  have hpr : ∀ x, cm.priv x = seg n1 (nodeSize p2 big ch) x + seg n2 (2 + prefixSlots p1.length) x := by
    intro x
    rw [hcm, hsz1, hcount]
    simp [Commit.priv]
  obtain ⟨w1, w2, w3, w4, w5, w6⟩ := splitPrefix_facts (n1 := n1) (n2 := n2) (L := fun n => n ∈ lockList2 op.node op.parent)
    hwfn hpair hkey hne (mem_lockList2 _ _)
  obtain ⟨h6, h7⟩ := hm1.repr (fun c => ⟨hrepr.2 c, hinb.2 c⟩)
  obtain ⟨g4, g5⟩ := hm2.repr (ch2_forall (Q := fun _ u => u.Repr st.mem ∧ u.InBlocks st.baNext) (ta := .leaf op.key (trunc55 value))
    hne ⟨trivial, trivial⟩ ⟨h6, h7⟩ (fun _ => ⟨trivial, trivial⟩))
  have hw : buildNode (keyByte op.raw) n2 2 p1.length =
      holeWord C (T.node n2 p1 false (ch2 ka (.leaf op.key (trunc55 value)) kb (.node n1 p2 big ch))) := by
    rw [holeWord_node, hin.node.byte]
    simp [cnt, cntOf_ch2 (ta := .leaf op.key (trunc55 value)) (tb := .node n1 p2 big ch) rfl rfl hne]
  have hcover : ∀ x, (T.node n2 p1 false (ch2 ka (.leaf op.key (trunc55 value)) kb (.node n1 p2 big ch))).cover x +
      seg op.node (op.count + op.prefixSlots) x = (T.node op.node (p1 ++ kb :: p2) big ch).cover x + cm.priv x := by
    intro x
    rw [hpr, cover_node_eq, sumB_ch2 hne, nodeSize_ch2 rfl rfl hne, cover_node_eq, cover_node_eq, hsz, hsz1, hcount, hin.slots]
    have e1 : (T.leaf op.key (trunc55 value)).cover x = 0 := rfl
    omega
  have e2 := replace_pub (D := seg op.node (op.count + op.prefixSlots)) hcore hin.node
    (fun f hf => holeParent_mem hcore hin.node hf) rfl g4 w1 g5
    (fun x => Nat.le_of_eq (hcover x)) (seg_zero hinb.1.1)
    (fun x => by rw [hsz, hcount, hin.slots]; exact Nat.le_refl _) w4 hw w5 (fun h => w6 fun x hx => h x (by rw [hpr]; exact hx))
  refine UOut.okFree (replace_kept hin.node rfl fun x => Nat.le_of_eq (hcover x).symm) e2 hunl
    (hin.node.pos hcore (by rw [hsz, hcount, hin.slots])) ?_ ?_ ?_
    ⟨fun hd => Dense_plug (htree ▸ hd) rfl (Dense_ch2 hne trivial (Dense_plug_sub (C := C) (t0 := .node op.node (p1 ++ kb :: p2) big ch) (htree ▸ hd))),
      htree ▸ (KeepBig.split (ch2_snd ..)).plug _⟩
  · rw [hcm, commit_store]
  · rw [htree]; exact Upd1.plug hwf hpath w2
  · intro v; rw [htree]; exact not_has_plug hwf hpath (w3 v)

end

/-- Building the new nodes of a prepared update panics only if the address space is exhausted. -/
theorem bldU_spec (hP : KeysOK P) (hcore : CoreN P st t N0) (ha : a < st.nalloc) (hpair : P op.key (trunc55 value))
    (hf : UFactAt P t op C pfx big ch) (hfe : ∀ lk lv, P lk lv → trunc55 lv = op.value → fetched = lk)
    (hm : isMatch = decide (fetched = op.key)) :
    UMade P a st t N0 op value (pathOf C) pfx big ch (buildU st a op fetched isMatch value) := by
  cases hk : op.kind with
  | replaceEmptyRootWithLeaf => exact bldU_empty hcore hk
  | replaceLeafRootWithNode => exact bldU_rootNode hP hf hcore ha hk
  | rootLeafUpdate => exact bldU_rootUpdate hP hpair hf hcore ha hk hfe hm
  | nodePrefixMiss => exact bldU_prefixMiss hf hcore ha hk
  | nodeLeafInsert256 => exact bldU_insert256 hcore hk
  | nodeLeafInsert => exact bldU_insert hf hcore ha hk
  | nodeLeafUpdate => exact bldU_update hP hpair hf hcore ha (.inl hk) hfe hm
  | nodeLeafUpdate256 => exact bldU_update hP hpair hf hcore ha (.inr hk) hfe hm

/-- Publishing the change of a prepared update performs the update, or (only for a leaf deleted concurrently from a 256-way node) changes
nothing and `Finalize` returns false. -/
theorem cmtU_spec {cm : Commit} (hP : KeysOK P) (hcore : CoreN P st t (fun x => N0 x + cm.priv x)) (hpair : P op.key (trunc55 value))
    (hf : UFactAt P t op C pfx big ch) (hb : UBlt P st t op value cm (pathOf C) pfx big ch) :
    UOut P st t N0 op value cm.priv (st.commit cm) := by
  cases hk : op.kind with
  | replaceEmptyRootWithLeaf => exact cmtU_empty hpair hf hcore hb hk
  | replaceLeafRootWithNode => exact cmtU_rootNode hP hpair hf hcore hb hk
  | rootLeafUpdate => exact cmtU_rootUpdate hP hpair hf hcore hb hk
  | nodePrefixMiss => exact cmtU_prefixMiss hpair hf hcore hb hk
  | nodeLeafInsert256 => exact cmtU_insert256 hpair hf hcore hb hk
  | nodeLeafInsert => exact cmtU_insert hpair hf hcore hb hk
  | nodeLeafUpdate => exact cmtU_update hP hpair hf hcore hb (.inl hk)
  | nodeLeafUpdate256 => exact cmtU_update hP hpair hf hcore hb (.inr hk)

end

end Radix
