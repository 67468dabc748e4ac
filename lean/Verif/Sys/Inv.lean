import Verif.Calm
/-!
# The invariant of the system
-/
namespace Radix
open T

/-- The pairs that may be stored. -/
def Env.P (env : Env) (k : Key) (v : Word) : Prop := env.keys k ∧ env.fetch v = k ∧ trunc55 v = v

theorem Env.keysOK (env : Env) : KeysOK env.P :=
  ⟨fun h => env.ne h.1, fun h => env.len h.1, fun h h' => env.free h.1 h'.1⟩

theorem Env.adm (env : Env) {key : Key} (h : env.keys key) : Adm env.P key := by
  refine ⟨env.ne h, ?_⟩
  rintro lk lv hl (h1 | h1)
  · exact (env.free h hl.1 h1).symm
  · exact env.free hl.1 h h1

/-! ## What an operation holds -/

/-- The locks held. -/
def Proc.unl : Proc → Unlock
  | .upd (.held _ op) => op.unl
  | .upd (.tail _ tl) => tl.unl
  | .del (.held cur) => cur.op.unl
  | .del (.tail _ tl) => tl.unl
  | .updB op _ _ => op.unl
  | .delB cur _ => cur.op.unl
  | _ => .none

/-- Memory detached from the tree and not yet recycled, or not yet put into the tree. -/
def Proc.pend (p : Proc) (x : Nat) : Nat :=
  match p.tail? with
  | some tl => tl.seg x
  | none => p.priv x

/-- Change of the item counter still to be made. -/
def Proc.items (p : Proc) : Int :=
  match p.tail? with
  | some tl => tl.items
  | none => 0

/-- Between `startOp` and `endOp`. -/
def Proc.active : Proc → Bool
  | .idle => false
  | .arm _ _ => false
  | _ => true

def Sys.pend (s : Sys) (x : Nat) : Nat := ((List.range s.st.nalloc).map fun a => (s.proc a).pend x).sum

def Sys.items (s : Sys) : Int := ((List.range s.st.nalloc).map fun a => (s.proc a).items).sum

theorem Proc.unl_of_tail {p : Proc} {tl : Tail} (h : p.tail? = some tl) : p.unl = tl.unl := by
  unfold Proc.tail? at h
  split at h <;> simp_all [Proc.unl]

/-- The generation is still `g`, apart from a lock that is or was held for a moment, and nobody is between publishing a change of this node
(or `Abort`) and unlocking it. -/
def Fresh (s : Sys) (n : Nat) (g : Int) : Prop := s.st.gen n / 2 = g / 2 ∧ ¬ s.Window n

theorem Sys.Window.congr {s : Sys} {n n' : Nat} (h : s.Window n) (hs : sameLock n n') : s.Window n' := by
  obtain ⟨a, tl, h1, m, h2, h3⟩ := h
  exact ⟨a, tl, h1, m, h2, h3.1.trans hs.1, h3.2.trans hs.2⟩

theorem Fresh.congr {s : Sys} {n n' : Nat} {g : Int} (h : Fresh s n g) (hs : sameLock n n') : Fresh s n' g :=
  ⟨by rw [← gen_congr hs]; exact h.1, fun hw => h.2 (hw.congr (sameLock_comm.1 hs))⟩

/-! ## Positions -/

/-- Where a search is: the reference `raw` to the node visited, where it was read, and the generations read. -/
structure Pos where
  parent : Nat
  pg : Int
  nodePtr : Ptr
  raw : Word
  node : Nat
  ng : Int

def UpdOp.pos (op : UpdOp) : Pos := ⟨op.parent, op.parentGen, op.nodePtr, op.raw, op.node, op.nodeGen⟩
def DelOp.pos (op : DelOp) : Pos := ⟨op.parent, op.parentGen, op.nodePtr, op.raw, op.node, op.nodeGen⟩

/-- `raw` refers to the node at path `q` of `t`. -/
def LiveRef (t : T) (raw : Word) (q : Key) : Prop :=
  ∃ b n pfx big ch, At t q (.node n pfx big ch) ∧ raw = wordOf b (.node n pfx big ch)

/-- `raw` refers to the node at path `q` of one of the trees `S`. -/
def SeenRef (S : T → Prop) (raw : Word) (q : Key) : Prop := ∃ t, S t ∧ LiveRef t raw q

/-- The reference was read from the right slot of the parent. -/
def HoleC (t : T) (parent : Nat) (nodePtr : Ptr) (raw : Word) (q : Key) : Prop :=
  ∃ q0 pfx big ch c, At t q0 (.node parent pfx big ch) ∧ q = q0 ++ pfx ++ [c] ∧
    nodePtr = .slot (childSlot parent pfx big ch c) ∧ (ch c).isNode = true ∧ raw = wordOf c (ch c)

/-- The parent's side of a position. -/
def Up (s : Sys) (t : T) (p : Pos) (q : Key) : Prop :=
  (p.parent = 0 ∧ p.nodePtr = .root ∧ q = [] ∧ keyByte p.raw = 0) ∨
  (p.parent ≠ 0 ∧ q ≠ [] ∧ p.parent / blockSlots < s.st.baNext ∧ p.pg / 2 ≤ s.st.gen p.parent / 2 ∧
    (Fresh s p.parent p.pg → HoleC t p.parent p.nodePtr p.raw q))

/-- Before reading the node's generation. -/
structure W1 (s : Sys) (t : T) (S : T → Prop) (p : Pos) (q : Key) : Prop where
  ref : SeenRef S p.raw q
  up : Up s t p q

/-- After reading the node's generation. -/
structure W2 (s : Sys) (t : T) (S : T → Prop) (p : Pos) (q : Key) : Prop extends W1 s t S p q where
  node : p.node = nodeAddr p.raw
  ng : p.ng / 2 ≤ s.st.gen p.node / 2
  le : p.parent ≠ 0 → sameLock p.parent p.node → p.pg / 2 ≤ p.ng / 2

/-- After checking the reference. -/
structure W3 (s : Sys) (t : T) (S : T → Prop) (p : Pos) (q : Key) : Prop extends W2 s t S p q where
  live0 : p.parent = 0 → Fresh s p.node p.ng → LiveRef t p.raw q

/-- After checking the parent's generation. -/
structure W4 (s : Sys) (t : T) (S : T → Prop) (p : Pos) (q : Key) : Prop extends W2 s t S p q where
  live : Fresh s p.node p.ng → LiveRef t p.raw q
  eq : p.parent ≠ 0 → sameLock p.parent p.node → p.pg / 2 = p.ng / 2

/-! ## Updates -/

/-- The key has been matched up to the path of the node. -/
structure UKey (env : Env) (op : UpdOp) (q : Key) : Prop where
  key : env.keys op.key
  path : q <+: op.key
  depth : op.depth = q.length

/-- What an update knows about the node it has read. -/
structure UKnow (env : Env) (t : T) (op : UpdOp) (q : Key) (pfx : List UInt8) (big : Bool) (ch : UInt8 → T) : Prop where
  at' : At t q (.node op.node pfx big ch)
  raw : ∃ b, op.raw = wordOf b (.node op.node pfx big ch)
  count : op.count = cnt big ch
  pre : op.pfx = pfx
  slots : op.prefixSlots = prefixSlots pfx.length
  data : op.data = ⟨op.node, blockSlots - op.node % blockSlots⟩
  kind :
    (op.kind = .nodePrefixMiss ∧ ∃ p1 kb p2 ka rest, pfx = p1 ++ kb :: p2 ∧ op.key = q ++ p1 ++ ka :: rest ∧ ka ≠ kb ∧
      op.depth = q.length ∧ op.prefixMismatch = p1.length) ∨
    ((op.depth = (q ++ pfx).length ∧ q ++ pfx ++ [op.k] <+: op.key) ∧
      ((op.kind = .nodeLeafInsert256 ∧ big = true ∧ ch op.k = .empty ∧
        op.leafPtr = .slot (childSlot op.node pfx true ch op.k)) ∨
      (op.kind = .nodeLeafInsert ∧ big = false ∧ ch op.k = .empty ∧ op.position = rankOf (present ch) op.k) ∨
      (op.kind = (if big then .nodeLeafUpdate256 else .nodeLeafUpdate) ∧
        ∃ lk lv, q ++ pfx ++ [op.k] <+: lk ∧ env.P lk lv ∧ op.currentLeaf = buildLeaf op.k lv ∧ op.value = trunc55 lv ∧
          (ch op.k = .leaf lk lv ∨ (big = true ∧ ch op.k = .empty)) ∧
          op.leafPtr = .slot (childSlot op.node pfx big ch op.k))))

/-- The kinds for which `PrepareUpdate` returns true. -/
def UKind.found : UKind → Bool
  | .rootLeafUpdate | .nodeLeafUpdate | .nodeLeafUpdate256 => true
  | _ => false

def UKind.isRoot : UKind → Bool
  | .replaceEmptyRootWithLeaf | .replaceLeafRootWithNode | .rootLeafUpdate => true
  | _ => false

/-- The candidate returned was stored at some moment. -/
def Cand (S : T → Prop) (value : Word) : Prop := ∃ t lk lv, S t ∧ t.Has lk lv ∧ value = trunc55 lv

def PInvU (env : Env) (s : Sys) (t : T) (S : T → Prop) : UPh → Prop
  | .start key => env.keys key
  | .root key root => env.keys key ∧ (root = 0 ∨ isLeaf root = true)
  | .gen op => ∃ q, UKey env op q ∧ W1 s t S op.pos q
  | .ptr op => ∃ q, UKey env op q ∧ W2 s t S op.pos q ∧ op.count = nodeCount op.raw
  | .par op => ∃ q, UKey env op q ∧ W3 s t S op.pos q ∧ op.count = nodeCount op.raw
  | .body op => ∃ q, UKey env op q ∧ W4 s t S op.pos q ∧ op.count = nodeCount op.raw
  | .lock found op => env.keys op.key ∧ op.kind.isRoot = false ∧ found = op.kind.found ∧ (found = true → Cand S op.value) ∧
      ∃ q pfx big, W4 s t S op.pos q ∧ (Fresh s op.node op.nodeGen → ∃ ch, UKnow env t op q pfx big ch)
  | .held found op => env.keys op.key ∧ found = op.kind.found ∧ (found = true → Cand S op.value) ∧
      ((op.kind.isRoot = true ∧ UFact env.P t op) ∨
      (op.kind.isRoot = false ∧ ∃ q pfx big ch, UKnow env t op q pfx big ch ∧
        ((op.parent = 0 ∧ op.nodePtr = .root ∧ q = [] ∧ keyByte op.raw = 0) ∨
          (op.parent ≠ 0 ∧ HoleC t op.parent op.nodePtr op.raw q))))
  | .tail _ tl => (∀ n slots, tl.free = some (n, slots) → NewPos s.st n slots) ∧ ∀ c n p, tl.unl = .three c n p → n ≠ 0

/-! ## Deletes and lookups -/

/-- If the key was stored all the time, the path is a prefix of it. -/
def Trk (S : T → Prop) (key : Key) (q : Key) : Prop := (∀ t, S t → ∃ v, t.Has key v) → q <+: key

structure DKey (S : T → Prop) (cur : DelCur) (q : Key) : Prop where
  ne : cur.key ≠ []
  depth : cur.depth = q.length
  trk : Trk S cur.key q
  top : q = [] → cur.op.raw = cur.root
  root : SeenRef S cur.root []

/-- Candidate of a delete or lookup: stored at some moment; the key itself if that was stored all the time. -/
def CandK (S : T → Prop) (key : Key) (value : Word) : Prop :=
  ∃ t lk lv, S t ∧ t.Has lk lv ∧ value = trunc55 lv ∧ ((∀ t, S t → ∃ v, t.Has key v) → lk = key)

/-- At some moment the key was not stored. -/
def Absent (S : T → Prop) (key : Key) : Prop := ∃ t, S t ∧ ∀ v, ¬ t.Has key v

/-- The word of a leaf put at path `q`. -/
def leafWord (q : Key) (lk : Key) (lv : Word) : Word :=
  match q.getLast? with
  | none => rootWord (.leaf lk lv)
  | some c => wordOf c (.leaf lk lv)

/-- What a delete knows about the node it has read, when it removes or replaces that node. -/
structure DKnow (t : T) (op : DelOp) (key : Key) (q : Key) (pfx : List UInt8) (ch : UInt8 → T) : Prop where
  at' : At t q (.node op.node pfx false ch)
  raw : ∃ b, op.raw = wordOf b (.node op.node pfx false ch)
  slots : op.prefixSlots = prefixSlots pfx.length
  kind :
    (op.kind = .deleteLeaf ∧ ∃ k lk lv, ch k = .leaf lk lv ∧ 3 ≤ cntOf (present ch) ∧ op.value = trunc55 lv ∧
      op.count = cntOf (present ch) ∧ op.prefixLen = pfx.length ∧ op.leafPosition = rankOf (present ch) k ∧
      op.data = ⟨op.node, blockSlots - op.node % blockSlots⟩) ∨
    (op.kind = .replaceNodeWithLeaf ∧ ∃ k k2 lk lv lk2 lv2, ch = ch2 k (.leaf lk lv) k2 (.leaf lk2 lv2) ∧ k ≠ k2 ∧
      op.value = trunc55 lv ∧ op.count = 2 ∧ (lk = key → op.newLeaf = leafWord q lk2 lv2))

/-- What a delete knows about the node and its other child, when it merges them. -/
structure DMerge (t : T) (op : DelOp) (q : Key) (pfx : List UInt8) (k k2 : UInt8) (lk : Key) (lv : Word)
    (pfx2 : List UInt8) (big2 : Bool) (kids : UInt8 → T) : Prop where
  at' : At t q (.node op.node pfx false (ch2 k (.leaf lk lv) k2 (.node op.child pfx2 big2 kids)))
  raw : ∃ b, op.raw = wordOf b (.node op.node pfx false (ch2 k (.leaf lk lv) k2 (.node op.child pfx2 big2 kids)))
  ne : k ≠ k2
  value : op.value = trunc55 lv
  count : op.count = cnt big2 kids

/-- Before locking for a merge: `other` is the reference to the child. -/
def MergeW (s : Sys) (t : T) (S : T → Prop) (cur : DelCur) (other : Word) (plen : Nat) : Prop :=
  cur.key ≠ [] ∧ CandK S cur.key cur.op.value ∧ cur.op.child = nodeAddr other ∧ plen = nodePlen cur.op.raw ∧
  cur.op.data = ⟨cur.op.node, blockSlots - cur.op.node % blockSlots⟩ ∧
  ∃ q pfx k k2 lk lv pfx2 big2, W4 s t S cur.op.pos q ∧ SeenRef S other (q ++ pfx ++ [k2]) ∧
    (Fresh s cur.op.node cur.op.nodeGen → ∃ kids, DMerge t cur.op q pfx k k2 lk lv pfx2 big2 kids ∧
      other = wordOf k2 (.node cur.op.child pfx2 big2 kids))

theorem SameKids.two {k k2 : UInt8} {c1 c2 : T} {ch' : UInt8 → T} (h : SameKids false (ch2 k c1 k2 c2) ch') (hne : k ≠ k2) :
    ch' = ch2 k (ch' k) k2 (ch' k2) := by
  funext c
  by_cases hc : c = k
  · subst hc; rw [ch2_fst hne]
  · by_cases hc2 : c = k2
    · subst hc2; rw [ch2_snd]
    · have := h rfl c
      rw [ch2_other hc hc2] at this ⊢
      exact T.isEmpty_eq_true.1 (by rw [this]; rfl)

/-- Before loading the other child, at `p`, of a node with two children: the leaf found is the child for byte `k`. -/
def OtherW (s : Sys) (t : T) (S : T → Prop) (cur : DelCur) (p : Nat) (plen : Nat) : Prop :=
  CandK S cur.key cur.op.value ∧ plen = nodePlen cur.op.raw ∧
  ∃ q pfx k k2 cur0 pos w, cur = (DelCur.passed cur0 cur.op.node pfx).foundTwo pos w ∧ DKey S cur0 q ∧ W4 s t S cur.op.pos q ∧ k ≠ k2 ∧
    cur0.depth + pfx.length < cur0.key.length ∧ keyAt cur0.key (cur0.depth + pfx.length) = .ok k ∧
    (∃ t0 c1 c2 b, S t0 ∧ At t0 q (.node cur.op.node pfx false (ch2 k c1 k2 c2)) ∧ c2.isEmpty = false ∧
      cur.op.raw = wordOf b (.node cur.op.node pfx false (ch2 k c1 k2 c2)) ∧ p = childSlot cur.op.node pfx false (ch2 k c1 k2 c2) k2) ∧
    (Fresh s cur.op.node cur.op.nodeGen → ∃ lk lv c2, At t q (.node cur.op.node pfx false (ch2 k (.leaf lk lv) k2 c2)) ∧ cur.op.value = trunc55 lv ∧
      c2.isEmpty = false ∧ (∃ b, cur.op.raw = wordOf b (.node cur.op.node pfx false (ch2 k (.leaf lk lv) k2 c2))) ∧
      p = childSlot cur.op.node pfx false (ch2 k (.leaf lk lv) k2 c2) k2)

/-- The parent's side of a prepared operation. -/
def HoldUp (t : T) (p : Pos) (q : Key) : Prop :=
  (p.parent = 0 ∧ p.nodePtr = .root ∧ q = [] ∧ keyByte p.raw = 0) ∨
    (p.parent ≠ 0 ∧ HoleC t p.parent p.nodePtr p.raw q)

def PInvD (s : Sys) (t : T) (S : T → Prop) : DPh → Prop
  | .start key => key ≠ []
  | .root key root => key ≠ [] ∧ isLeaf root = true ∧ some (keyByte root) = key.head?
  | .gen cur => ∃ q, DKey S cur q ∧ W1 s t S cur.op.pos q
  | .ptr cur => ∃ q, DKey S cur q ∧ W2 s t S cur.op.pos q
  | .par cur => ∃ q, DKey S cur q ∧ W3 s t S cur.op.pos q
  | .body cur => ∃ q, DKey S cur q ∧ W4 s t S cur.op.pos q
  | .lock cur => cur.key ≠ [] ∧ CandK S cur.key cur.op.value ∧ (cur.op.kind = .deleteLeaf ∨ cur.op.kind = .replaceNodeWithLeaf) ∧
      ∃ q pfx, W4 s t S cur.op.pos q ∧ (Fresh s cur.op.node cur.op.nodeGen → ∃ ch, DKnow t cur.op cur.key q pfx ch)
  | .other cur p plen => OtherW s t S cur p plen
  | .cgen cur _ other plen => MergeW s t S cur other plen
  | .cptr cur _ other plen => MergeW s t S cur other plen
  | .lock3 cur other plen => MergeW s t S cur other plen
  | .miss key => Absent S key
  | .held cur => CandK S cur.key cur.op.value ∧
      ((cur.op.kind = .deleteRoot ∧ DFact t cur.op cur.key) ∨
      ((cur.op.kind = .deleteLeaf ∨ cur.op.kind = .replaceNodeWithLeaf) ∧
        ∃ q pfx ch, DKnow t cur.op cur.key q pfx ch ∧ HoldUp t cur.op.pos q) ∨
      (cur.op.kind = .replaceNodeWithNode ∧ ∃ q pfx k k2 lk lv pfx2 big2 kids,
        DMerge t cur.op q pfx k k2 lk lv pfx2 big2 kids ∧ HoldUp t cur.op.pos q ∧
        cur.op.prefixSlots = prefixSlots pfx2.length ∧ cur.op.pfx = pfx ++ k2 :: pfx2 ∧
        cur.op.data = ⟨cur.op.child, blockSlots - cur.op.child % blockSlots⟩) ∨
      (cur.op.kind = .deleteLeaf256 ∧ cur.op.value = leafValue cur.op.raw ∧ isLeaf cur.op.raw = true ∧
        ∃ t0 q n pfx ch k, S t0 ∧ At t0 q (.node n pfx true ch) ∧ cur.op.leafPtr = .slot (childSlot n pfx true ch k)))
  | .tail _ tl => (∀ n slots, tl.free = some (n, slots) → NewPos s.st n slots) ∧ ∀ c n p, tl.unl = .three c n p → n ≠ 0

/-- A lookup is inside this node, at the child slots (from the `i`-th on; earlier children have smaller bytes). -/
structure RIn (S : T → Prop) (key : Key) (q : Key) (n : Nat) (pfx : List UInt8) (big : Bool) (ch : UInt8 → T)
    (data : Slice) (k : UInt8) (depth : Nat) : Prop where
  seen : ∃ t, S t ∧ At t q (.node n pfx big ch)
  base : data.base = n + prefixSlots pfx.length
  len : cnt big ch ≤ data.len
  dep : depth = (q ++ pfx).length
  lt : depth < key.length
  byte : key[depth]? = some k
  trk : Trk S key (q ++ pfx ++ [k])

def PInvR (s : Sys) (t : T) (S : T → Prop) : RPh → Prop
  | .start key => key ≠ [] ∧ 0 < s.st.nblocks
  | .node key raw depth => key ≠ [] ∧ 0 < s.st.nblocks ∧ ((raw = 0 ∧ Absent S key ∧ depth ≤ key.length) ∨
      ∃ q, SeenRef S raw q ∧ depth = q.length ∧ depth ≤ key.length ∧ Trk S key q)
  | .slot key data k depth => key ≠ [] ∧ 0 < s.st.nblocks ∧ ∃ q n pfx ch, RIn S key q n pfx true ch data k depth
  | .scan key data i count k depth => key ≠ [] ∧ 0 < s.st.nblocks ∧
      ((data = ⟨0, blockSlots⟩ ∧ i = 0 ∧ count = 1 ∧ Absent S key ∧ depth < key.length) ∨
      ∃ q n pfx ch, RIn S key q n pfx false ch data k depth ∧ count = cntOf (present ch) ∧ i < count ∧
        ∀ c, present ch c = true → rankOf (present ch) c < i → c < k)
  | .done key res => (res = none → Absent S key) ∧ ∀ v, res = some v → CandK S key v

/-- An update that has built its new nodes. -/
def PInvUB (env : Env) (s : Sys) (t : T) (op : UpdOp) (value : Word) (cm : Commit) : Prop :=
  env.P op.key (trunc55 value) ∧ ∃ q pfx big ch, UBlt env.P s.st t op value cm q pfx big ch ∧
    ((op.kind.isRoot = true ∧ UFact env.P t op) ∨
      (op.kind.isRoot = false ∧ UKnow env t op q pfx big ch ∧ HoldUp t op.pos q))

/-- A delete that has built its new node. -/
def PInvDB (env : Env) (s : Sys) (t : T) (S : T → Prop) (cur : DelCur) (cm : Commit) : Prop :=
  env.fetch cur.op.value = cur.key ∧ ∃ q pfx ch big2 kids, DBlt s.st cur.op cm pfx ch big2 kids ∧
    ((cur.op.kind = .deleteRoot ∧ DFact t cur.op cur.key) ∨
      ((cur.op.kind = .deleteLeaf ∨ cur.op.kind = .replaceNodeWithLeaf) ∧
        DKnow t cur.op cur.key q pfx ch ∧ HoldUp t cur.op.pos q) ∨
      (cur.op.kind = .replaceNodeWithNode ∧ ∃ k k2 lk lv pfx2,
        DMerge t cur.op q pfx k k2 lk lv pfx2 big2 kids ∧ HoldUp t cur.op.pos q ∧
        cur.op.prefixSlots = prefixSlots pfx2.length ∧ cur.op.pfx = pfx ++ k2 :: pfx2 ∧
        cur.op.data = ⟨cur.op.child, blockSlots - cur.op.child % blockSlots⟩) ∨
      (cur.op.kind = .deleteLeaf256 ∧ cur.op.value = leafValue cur.op.raw ∧ isLeaf cur.op.raw = true ∧
        ∃ t0 q n pfx ch k, S t0 ∧ At t0 q (.node n pfx true ch) ∧ cur.op.leafPtr = .slot (childSlot n pfx true ch k)))

def PInv (env : Env) (s : Sys) (t : T) (S : T → Prop) : Proc → Prop
  | .idle => True
  | .arm _ c => match c with
    | .update key => env.keys key
    | .delete key => key ≠ []
    | .lookup key => key ≠ [] ∧ 0 < s.st.nblocks
    | .walk => 0 < s.st.nblocks
  | .upd ph => PInvU env s t S ph
  | .del ph => PInvD s t S ph
  | .rd ph => PInvR s t S ph
  | .walk => 0 < s.st.nblocks
  | .updB op value cm => PInvUB env s t op value cm
  | .delB cur cm => PInvDB env s t S cur cm

/-! ## The global parts -/

/-- Locks. -/
structure LInv (s : Sys) : Prop where
  odd : ∀ a, allOdd s.st (s.proc a).unl.list
  excl : ∀ a b, a ≠ b → ∀ n ∈ (s.proc a).unl.list, ∀ m ∈ (s.proc b).unl.list, ¬ sameLock n m
  root : (s.st.rootLock = 0 ∧ ∀ a, (s.proc a).unl ≠ .root) ∨
    (s.st.rootLock = 1 ∧ ∃ a, (s.proc a).unl = .root ∧ ∀ b, (s.proc b).unl = .root → b = a)
  held : ∀ n, s.st.gen n % 2 = 1 → ∃ a, ∃ m ∈ (s.proc a).unl.list, sameLock m n

/-- The node is in the tree, at its place; or it was, nothing of it has been reused, and it is as it was. -/
def Trail (st : St) (t : T) (S : T → Prop) (q : Key) (n : Nat) (pfx : List UInt8) (big : Bool) (ch : UInt8 → T) : Prop :=
  (∃ ch', At t q (.node n pfx big ch') ∧ SameKids big ch ch') ∨
  ∃ t' ch', S t' ∧ At t' q (.node n pfx big ch') ∧ SameKids big ch ch' ∧ NodeMem st.mem n pfx big ch' ∧
    ∀ x, n ≤ x → x < n + nodeSize pfx big ch → t.cover x = 0

/-- A tree seen by an operation with reservation `r`. -/
structure SeenOK (P : Key → Word → Prop) (st : St) (r : Nat) (t : T) : Prop where
  wf : t.WF P []
  inb : t.InBlocks st.baNext
  prot : ∀ x, 0 < t.cover x → freeP (fun e => decide (e < r)) st x = 0

/-- The map is the contents of the tree. -/
def Contents (t : T) (M : Map) : Prop := ∀ k v, t.Has k v ↔ M k = some v

/-- Memory, epochs, and the trees seen by the running operations. -/
structure MInv (env : Env) (s : Sys) (σ : Spec) (t : T) (seen : Nat → T → Prop) : Prop where
  core : CoreN env.P s.st t s.pend
  off : ∀ a, s.st.nalloc ≤ a → s.proc a = .idle
  content : Contents t σ.map
  idle : ∀ a, (s.proc a).active = false → s.st.resv a = maxUint64
  arm : ∀ a e c, s.proc a = .arm e c → e ≤ s.st.epoch
  now : ∀ a, (s.proc a).active = true → seen a t
  resv : ∀ a, (s.proc a).active = true → s.st.resv a ≤ s.st.epoch
  ok : ∀ a t', (s.proc a).active = true → seen a t' → SeenOK env.P s.st (s.st.resv a) t'
  win : ∀ a t', (s.proc a).active = true → seen a t' → ∃ M ∈ σ.window a, Contents t' M
  trail : ∀ a t' q n pfx big ch, (s.proc a).active = true → seen a t' → At t' q (.node n pfx big ch) →
    Trail s.st t (seen a) q n pfx big ch
  uniq : ∀ a t1 t2 q1 q2 n pfx1 big1 ch1 pfx2 big2 ch2, (s.proc a).active = true → seen a t1 → seen a t2 →
    At t1 q1 (.node n pfx1 big1 ch1) → At t2 q2 (.node n pfx2 big2 ch2) → q1 = q2
  count : ∃ l : List Key, l.Nodup ∧ (∀ k, k ∈ l ↔ ∃ v, t.Has k v) ∧ s.st.total + s.items = l.length
  priv : ∀ a b t', (s.proc b).active = true → seen b t' → ∀ x, 0 < (s.proc a).priv x → t'.cover x = 0

/-- The invariant. -/
structure Inv (env : Env) (s : Sys) (σ : Spec) (t : T) (seen : Nat → T → Prop) : Prop where
  locks : LInv s
  mem : MInv env s σ t seen
  proc : ∀ a, PInv env s t (seen a) (s.proc a)

end Radix
