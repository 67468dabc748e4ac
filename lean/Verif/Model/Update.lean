import Verif.Model.Search
import Verif.Model.Tail
/-!
# Updates (`update.go`)

`prepareUpdate` is a state machine (`UPh`) whose transition function `stepU` performs one group of accesses to shared
memory: load of the root; lock of the root leaf; load of a node's generation; re-load of the reference to the node;
re-load of the parent's generation; reading the node; locking.  Any number of steps of other goroutines may come in between.
`goto S` is the transition to `UPh.start` (`runtime.Gosched` has no effect on the state).  Simplifications: the words of
one node are read in one step, and locking (one to three compare-and-swaps with rollback) is one step.

`Finalize` has two steps: `publishU` builds the replacement in memory nobody else can reach and publishes it with one store or
compare-and-swap; `runTail` unlocks, recycles and counts.  `FetchedKey`/`Match` are parameters of `publishU`, set by the
caller between the two calls; the operation pool and `releaseAlloc` are not modelled here.
-/
namespace Radix

/-- update.go:14-23: operation kinds. -/
inductive UKind
  | replaceEmptyRootWithLeaf | replaceLeafRootWithNode | rootLeafUpdate
  | nodePrefixMiss | nodeLeafInsert256 | nodeLeafInsert | nodeLeafUpdate | nodeLeafUpdate256
  deriving DecidableEq, Repr

/-- update.go:35-81 `UpdateOperation`. -/
structure UpdOp where
  key : Key
  value : Word := 0
  kind : UKind := .replaceEmptyRootWithLeaf
  k : UInt8 := 0
  position : Nat := 0
  nodeGen : Int := 0
  parentGen : Int := 0
  node : Nat := 0
  parent : Nat := 0
  count : Nat := 0
  depth : Nat := 0
  pfx : List UInt8 := []
  prefixMismatch : Nat := 0
  nodePtr : Ptr := .root
  data : Slice := ⟨0, 0⟩
  prefixSlots : Nat := 0
  leafPtr : Ptr := .root
  currentLeaf : Word := 0
  raw : Word := 0
  deriving DecidableEq, Repr

/-- Control state of an update on its allocator: where `prepareUpdate` is (update.go:99-260), the prepared operation
(`held`), or `Finalize` after publishing (`tail`). -/
inductive UPh
  | start (key : Key)
  | root (key : Key) (root : Word)
  | gen (op : UpdOp)
  | ptr (op : UpdOp)
  | par (op : UpdOp)
  | body (op : UpdOp)
  | lock (found : Bool) (op : UpdOp)
  | held (found : Bool) (op : UpdOp)
  | tail (result : Bool) (tl : Tail)

/-- update.go:464-470 `enterNode`. -/
def UpdOp.enterNode (op : UpdOp) (p : Nat) (a : Word) : UpdOp :=
  { op with parentGen := op.nodeGen, parent := op.node, nodePtr := .slot p, raw := a, depth := op.depth + 1 }

/-- update.go:168-182: index of the first byte of the prefix that differs from the key (from `depth` on, here
`rest`); running out of key bytes is an index panic. -/
def cmpPrefix : Key → List UInt8 → Res (Option Nat)
  | _, [] => .ok none
  | [], _ :: _ => .error .index
  | x :: xs, y :: ys => if x ≠ y then .ok (some 0) else do
      let r ← cmpPrefix xs ys
      return r.map (· + 1)

/-- update.go:190-257: the part of a visit after the prefix; `data` is the data after the prefix. -/
def childrenU (m : Mem) (op : UpdOp) (data : Slice) : Res UPh := do
  let k ← keyAt op.key op.depth
  let op := { op with k := k }
  if op.count ≥ fullAllocFrom then
    let a ← data.get m k.toNat
    let p := data.base + k.toNat
    if a = 0 then
      return .lock false { op with kind := .nodeLeafInsert256, leafPtr := .slot p }
    else if isLeaf a then
      return .lock true
        { op with kind := .nodeLeafUpdate256, leafPtr := .slot p, currentLeaf := a, value := leafValue a }
    else
      return .gen (op.enterNode p a)
  else
    let ws ← data.words m op.count
    let (i, a) := scan k ws
    let op := { op with position := i }
    if keyByte a = k then
      let p := data.base + i
      if isLeaf a then
        return .lock true
          { op with kind := .nodeLeafUpdate, leafPtr := .slot p, currentLeaf := a, value := leafValue a }
      else
        return .gen (op.enterNode p a)
    else
      return .lock false { op with kind := .nodeLeafInsert }

/-- update.go:159-257: reading the node; `lock` stands for the call of `op.lock()` that follows. -/
def bodyU (st : St) (op : UpdOp) : Res UPh := do
  let data ← st.nodeData op.node
  if nodePlen op.raw > 0 then
    let (pfx, slots) ← appendPrefix st.mem [] data (nodePlen op.raw)
    let op := { op with data := data, pfx := pfx, prefixSlots := slots }
    match ← cmpPrefix (op.key.drop op.depth) pfx with
    | some i =>
      let k ← keyAt op.key op.depth
      return .lock false { op with kind := .nodePrefixMiss, k := k, prefixMismatch := i }
    | none =>
      let data' ← data.drop slots
      childrenU st.mem { op with depth := op.depth + pfx.length } data'
  else
    childrenU st.mem { op with data := data, pfx := [], prefixSlots := 0 } data

/-- update.go:105-259: one step of `prepareUpdate` (after `startOp`). -/
def stepU (st : St) : UPh → Res (UPh × St)
  | .start key =>
    -- update.go:106, 137-142
    if st.root = 0 ∨ isLeaf st.root then .ok (.root key st.root, st)
    else .ok (.gen { key := key, nodePtr := .root, raw := st.root }, st)
  | .root key root =>
    -- update.go:107-135
    match st.lockLeafRoot root with
    | (false, st) => .ok (.start key, st)
    | (true, st) => do
      let k ← keyAt key 0
      if root = 0 then
        return (.held false { key := key, k := k, kind := .replaceEmptyRootWithLeaf }, st)
      else if keyByte root = k then
        return (.held true
          { key := key, k := k, currentLeaf := root, kind := .rootLeafUpdate, value := leafValue root }, st)
      else
        return (.held false { key := key, k := k, currentLeaf := root, kind := .replaceLeafRootWithNode }, st)
  | .gen op => do
    -- update.go:146-148
    let gen ← st.generation (nodeAddr op.raw)
    return (.ptr { op with node := nodeAddr op.raw, count := nodeCount op.raw, nodeGen := gen }, st)
  | .ptr op =>
    -- update.go:150-152
    if st.load op.nodePtr ≠ op.raw then .ok (.start op.key, st) else .ok (.par op, st)
  | .par op =>
    -- update.go:155-157
    if op.parent = 0 then .ok (.body op, st)
    else do
      let g ← st.generation op.parent
      if op.parentGen ≠ g then return (.start op.key, st) else return (.body op, st)
  | .body op => do
    let ph ← bodyU st op
    return (ph, st)
  | .lock found op =>
    -- update.go:454-456 `lock`
    match st.lockNodes2 op.node op.nodeGen op.parent op.parentGen with
    | (true, st) => .ok (.held found op, st)
    | (false, st) => .ok (.start op.key, st)
  | .held f op => .ok (.held f op, st)
  | .tail r tl => .ok (.tail r tl, st)

/-- update.go:473-481 `addSortedChildren`. -/
def addSortedChildren (m : Mem) (data : Slice) (a b : Word) : Res Mem :=
  if keyByte a < keyByte b then do
    let m ← data.set m 0 a
    data.set m 1 b
  else do
    let m ← data.set m 0 b
    data.set m 1 a

/-- update.go:290-297: number of common bytes, with the prefix check. -/
def rootCommon : Key → Key → Res Nat
  | a :: as, b :: bs =>
    if a = b then
      if as = [] ∨ bs = [] then .error .prefixViolation
      else do
        let n ← rootCommon as bs
        return n + 1
    else .ok 0
  | _, _ => .error .index

/-- update.go:397-401: number of common bytes. -/
def commonLen : Key → Key → Nat
  | a :: as, b :: bs => if a = b then commonLen as bs + 1 else 0
  | _, _ => 0

/-- update.go:374-378: put the children of a variable sized node in their node-256 places. -/
def spread (m : Mem) (dst : Slice) : List Word → Res Mem
  | [] => .ok m
  | a :: as => do
    let m ← dst.set m (keyByte a).toNat a
    spread m dst as

/-- `if updated { op.allocator.itemCounter++ }` -/
def countIf (b : Bool) : Int := if b then 1 else 0

/-- update.go:265-417 `Finalize`, for allocator `a`, up to the publication of the change, and what remains to be done.
`fetched`/`isMatch` are `op.FetchedKey` and `op.Match`.  (In some cases the code increments the allocator's own counter before
unlocking, in others after; nobody else reads it.) -/
def publishU (st : St) (a : Nat) (op : UpdOp) (fetched : Key) (isMatch : Bool) (value : Word) :
    Res (Bool × Tail × St) := do
  match op.kind with
  | .replaceEmptyRootWithLeaf =>
    let (b, st) := st.cas .root 0 (buildLeaf op.k value)
    return (b, { unl := .root, items := countIf b }, st)
  | .replaceLeafRootWithNode =>
    let (newNode, data, st) ← st.allocNode a 2 0
    let m ← addSortedChildren st.mem data op.currentLeaf (buildLeaf op.k value)
    let (b, st) := { st with mem := m }.cas .root op.currentLeaf (buildNode 0 newNode 2 0)
    return (b, { unl := .root, items := countIf b }, st)
  | .rootLeafUpdate =>
    if isMatch then
      let (b, st) := st.cas .root op.currentLeaf (buildLeaf op.k value)
      return (b, { unl := .root }, st)
    else
      let prefixLen ← rootCommon op.key fetched
      let (newNode, data, st) ← st.allocNodeP a 2 (op.key.take prefixLen)
      let ka ← keyAt op.key prefixLen
      let kb ← keyAt fetched prefixLen
      let m ← addSortedChildren st.mem data (buildLeaf ka value) (updateLeafKey op.currentLeaf kb)
      let (b, st) := { st with mem := m }.cas .root op.currentLeaf (buildNode 0 newNode 2 prefixLen)
      return (b, { unl := .root, items := countIf b }, st)
  | .nodePrefixMiss =>
    let ka ← keyAt op.key (op.depth + op.prefixMismatch)
    let kb ← keyAt op.pfx op.prefixMismatch
    let pl := op.pfx.length - op.prefixMismatch - 1
    let (updatedNode, dst, st) ← st.allocNodeP a op.count (op.pfx.drop (op.prefixMismatch + 1))
    let src ← op.data.drop op.prefixSlots
    let ws ← src.words st.mem op.count
    let st := { st with mem := dst.copy st.mem ws }
    let (newNode, data, st) ← st.allocNodeP a 2 ((op.key.drop op.depth).take op.prefixMismatch)
    let m ← addSortedChildren st.mem data (buildLeaf ka value) (buildNode kb updatedNode op.count pl)
    let st := { st with mem := m }.store op.nodePtr (buildNode (keyByte op.raw) newNode 2 op.prefixMismatch)
    return (true, { unl := .two op.node op.parent, free := some (op.node, op.count + op.prefixSlots), items := 1 }, st)
  | .nodeLeafInsert256 =>
    let (b, st) := st.cas op.leafPtr 0 (buildLeaf op.k value)
    return (b, { unl := .two op.node op.parent, items := countIf b }, st)
  | .nodeLeafInsert =>
    if op.count < fullAllocAfter then
      let (newNode, dst, st) ← st.allocNode a (op.count + 1) op.pfx.length
      let split := op.prefixSlots + op.position
      let ws1 ← op.data.words st.mem split
      let m := dst.copy st.mem ws1
      let m ← dst.set m split (buildLeaf op.k value)
      let l := op.count - op.position
      let src2 ← op.data.drop split
      let ws2 ← src2.words m l
      let dst2 ← dst.drop (split + 1)
      let m := dst2.copy m ws2
      let st := { st with mem := m }.store op.nodePtr
        (buildNode (keyByte op.raw) newNode (op.count + 1) op.pfx.length)
      return (true, { unl := .two op.node op.parent, free := some (op.node, op.count + op.prefixSlots), items := 1 }, st)
    else
      let (newNode, dst, st) ← st.allocNodeP a 256 op.pfx
      let _ ← dst.words st.mem 256
      let m := writeWords st.mem dst.base (List.replicate 256 0)
      let src ← op.data.drop op.prefixSlots
      let m ← dst.set m op.k.toNat (buildLeaf op.k value)
      let ws ← src.words m op.count
      let m ← spread m dst ws
      let st := { st with mem := m }.store op.nodePtr
        (buildNode (keyByte op.raw) newNode 256 op.pfx.length)
      return (true, { unl := .two op.node op.parent, free := some (op.node, op.count + op.prefixSlots), items := 1 }, st)
  | .nodeLeafUpdate | .nodeLeafUpdate256 =>
    if isMatch then
      let (b, st) := st.cas op.leafPtr op.currentLeaf (buildLeaf op.k value)
      return (b, { unl := .two op.node op.parent }, st)
    else
      let prefixLen := commonLen (op.key.drop (op.depth + 1)) (fetched.drop (op.depth + 1))
      let i := op.depth + 1 + prefixLen
      let ka ← keyAt op.key i
      let kb ← keyAt fetched i
      let (newNode, data, st) ← st.allocNodeP a 2 ((op.key.drop (op.depth + 1)).take prefixLen)
      let m ← addSortedChildren st.mem data (buildLeaf ka value) (updateLeafKey op.currentLeaf kb)
      let (b, st) := { st with mem := m }.cas op.leafPtr op.currentLeaf (buildNode op.k newNode 2 prefixLen)
      return (b, { unl := .two op.node op.parent, items := countIf b }, st)

/-- update.go:265-417 `Finalize`, for allocator `a`, up to the store or compare-and-swap that publishes the change: allocate the new
nodes and fill them.  `publishU` is this function followed by `St.commit` (`publishU_eq`, `Verif/Split.lean`). -/
def buildU (st : St) (a : Nat) (op : UpdOp) (fetched : Key) (isMatch : Bool) (value : Word) : Res (Commit × St) := do
  match op.kind with
  | .replaceEmptyRootWithLeaf =>
    return ({ ptr := .root, exp := some 0, new := buildLeaf op.k value,
              ok := { unl := .root, items := 1 }, ko := { unl := .root } }, st)
  | .replaceLeafRootWithNode =>
    let (newNode, data, st) ← st.allocNode a 2 0
    let m ← addSortedChildren st.mem data op.currentLeaf (buildLeaf op.k value)
    return ({ ptr := .root, exp := some op.currentLeaf, new := buildNode 0 newNode 2 0, nodes := [(newNode, 2)],
              ok := { unl := .root, items := 1 }, ko := { unl := .root } }, { st with mem := m })
  | .rootLeafUpdate =>
    if isMatch then
      return ({ ptr := .root, exp := some op.currentLeaf, new := buildLeaf op.k value,
                ok := { unl := .root }, ko := { unl := .root } }, st)
    else
      let prefixLen ← rootCommon op.key fetched
      let (newNode, data, st) ← st.allocNodeP a 2 (op.key.take prefixLen)
      let ka ← keyAt op.key prefixLen
      let kb ← keyAt fetched prefixLen
      let m ← addSortedChildren st.mem data (buildLeaf ka value) (updateLeafKey op.currentLeaf kb)
      return ({ ptr := .root, exp := some op.currentLeaf, new := buildNode 0 newNode 2 prefixLen,
                nodes := [(newNode, 2 + prefixSlots prefixLen)],
                ok := { unl := .root, items := 1 }, ko := { unl := .root } }, { st with mem := m })
  | .nodePrefixMiss =>
    let ka ← keyAt op.key (op.depth + op.prefixMismatch)
    let kb ← keyAt op.pfx op.prefixMismatch
    let pl := op.pfx.length - op.prefixMismatch - 1
    let (updatedNode, dst, st) ← st.allocNodeP a op.count (op.pfx.drop (op.prefixMismatch + 1))
    let src ← op.data.drop op.prefixSlots
    let ws ← src.words st.mem op.count
    let st := { st with mem := dst.copy st.mem ws }
    let (newNode, data, st) ← st.allocNodeP a 2 ((op.key.drop op.depth).take op.prefixMismatch)
    let m ← addSortedChildren st.mem data (buildLeaf ka value) (buildNode kb updatedNode op.count pl)
    return ({ ptr := op.nodePtr, new := buildNode (keyByte op.raw) newNode 2 op.prefixMismatch,
              nodes := [(updatedNode, op.count + prefixSlots pl), (newNode, 2 + prefixSlots op.prefixMismatch)],
              ok := { unl := .two op.node op.parent, free := some (op.node, op.count + op.prefixSlots), items := 1 } },
            { st with mem := m })
  | .nodeLeafInsert256 =>
    return ({ ptr := op.leafPtr, exp := some 0, new := buildLeaf op.k value,
              ok := { unl := .two op.node op.parent, items := 1 }, ko := { unl := .two op.node op.parent } }, st)
  | .nodeLeafInsert =>
    if op.count < fullAllocAfter then
      let (newNode, dst, st) ← st.allocNode a (op.count + 1) op.pfx.length
      let split := op.prefixSlots + op.position
      let ws1 ← op.data.words st.mem split
      let m := dst.copy st.mem ws1
      let m ← dst.set m split (buildLeaf op.k value)
      let l := op.count - op.position
      let src2 ← op.data.drop split
      let ws2 ← src2.words m l
      let dst2 ← dst.drop (split + 1)
      let m := dst2.copy m ws2
      return ({ ptr := op.nodePtr, new := buildNode (keyByte op.raw) newNode (op.count + 1) op.pfx.length,
                nodes := [(newNode, op.count + 1 + prefixSlots op.pfx.length)],
                ok := { unl := .two op.node op.parent, free := some (op.node, op.count + op.prefixSlots), items := 1 } },
              { st with mem := m })
    else
      let (newNode, dst, st) ← st.allocNodeP a 256 op.pfx
      let _ ← dst.words st.mem 256
      let m := writeWords st.mem dst.base (List.replicate 256 0)
      let src ← op.data.drop op.prefixSlots
      let m ← dst.set m op.k.toNat (buildLeaf op.k value)
      let ws ← src.words m op.count
      let m ← spread m dst ws
      return ({ ptr := op.nodePtr, new := buildNode (keyByte op.raw) newNode 256 op.pfx.length,
                nodes := [(newNode, 256 + prefixSlots op.pfx.length)],
                ok := { unl := .two op.node op.parent, free := some (op.node, op.count + op.prefixSlots), items := 1 } },
              { st with mem := m })
  | .nodeLeafUpdate | .nodeLeafUpdate256 =>
    if isMatch then
      return ({ ptr := op.leafPtr, exp := some op.currentLeaf, new := buildLeaf op.k value,
                ok := { unl := .two op.node op.parent }, ko := { unl := .two op.node op.parent } }, st)
    else
      let prefixLen := commonLen (op.key.drop (op.depth + 1)) (fetched.drop (op.depth + 1))
      let i := op.depth + 1 + prefixLen
      let ka ← keyAt op.key i
      let kb ← keyAt fetched i
      let (newNode, data, st) ← st.allocNodeP a 2 ((op.key.drop (op.depth + 1)).take prefixLen)
      let m ← addSortedChildren st.mem data (buildLeaf ka value) (updateLeafKey op.currentLeaf kb)
      return ({ ptr := op.leafPtr, exp := some op.currentLeaf, new := buildNode op.k newNode 2 prefixLen,
                nodes := [(newNode, 2 + prefixSlots prefixLen)],
                ok := { unl := .two op.node op.parent, items := 1 }, ko := { unl := .two op.node op.parent } },
              { st with mem := m })

/-- update.go:265-425 `Finalize` without interruption. -/
def finalizeU (st : St) (a : Nat) (op : UpdOp) (fetched : Key) (isMatch : Bool) (value : Word) :
    Res (Bool × St) := do
  let (b, tl, st) ← publishU st a op fetched isMatch value
  let st ← st.runTail a tl
  return (b, st)

/-- update.go:427-439 `Abort`. -/
def abortU (st : St) (a : Nat) (op : UpdOp) : Res St := do
  match op.kind with
  | .replaceEmptyRootWithLeaf | .replaceLeafRootWithNode | .rootLeafUpdate => return (st.unlockRoot).endOp a
  | _ =>
    let st ← st.unlockNodes2 op.node op.parent
    return st.endOp a

end Radix
