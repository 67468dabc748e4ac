import Verif.Model.Update
/-!
# Deletes (`delete.go`)
-/
namespace Radix

/-- delete.go:14-21: operation kinds. -/
inductive DKind
  | deleteRoot | replaceNodeWithLeaf | replaceNodeWithNode | deleteLeaf | deleteLeaf256 | notFound
  deriving DecidableEq, Repr

/-- delete.go:28-59 `DeleteOperation`. -/
structure DelOp where
  value : Word := 0
  kind : DKind := .notFound
  raw : Word := 0
  leafPtr : Ptr := .root
  nodePtr : Ptr := .root
  parentGen : Int := 0
  nodeGen : Int := 0
  childGen : Int := 0
  parent : Nat := 0
  node : Nat := 0
  child : Nat := 0
  data : Slice := ⟨0, 0⟩
  newLeaf : Word := 0
  count : Nat := 0
  prefixLen : Nat := 0
  prefixSlots : Nat := 0
  leafPosition : Nat := 0
  pfx : List UInt8 := []
  deriving DecidableEq, Repr

/-- The local variables of the search loop (delete.go:105) beside the operation. -/
structure DelCur where
  op : DelOp
  key : Key
  root : Word
  depth : Nat

/-- Control state of a delete on its allocator.  `other` (before loading the other child, at `p`) belongs to the case of a node with two children;
`cgen`, `cptr`, `lock3` to the case that the other child is a node, too (`other`: the reference to it, `plen`: prefix length field of the node);
`miss`: `prepare` returned false and `PrepareDelete` calls `Abort` (allocator.go:164-166), which only ends the operation. -/
inductive DPh
  | start (key : Key)
  | root (key : Key) (root : Word)
  | gen (cur : DelCur)
  | ptr (cur : DelCur)
  | par (cur : DelCur)
  | body (cur : DelCur)
  | lock (cur : DelCur)
  | other (cur : DelCur) (p : Nat) (plen : Nat)
  | cgen (cur : DelCur) (p : Nat) (other : Word) (plen : Nat)
  | cptr (cur : DelCur) (p : Nat) (other : Word) (plen : Nat)
  | lock3 (cur : DelCur) (other : Word) (plen : Nat)
  | miss (key : Key)
  | held (cur : DelCur)
  | tail (result : Bool) (tl : Tail)

/-- delete.go:375-380 `enterNode` and `depth++`. -/
def DelCur.enterNode (cur : DelCur) (p : Nat) (a : Word) : DelCur :=
  { cur with
    op := { cur.op with parentGen := cur.op.nodeGen, parent := cur.op.node, nodePtr := .slot p, raw := a }
    depth := cur.depth + 1 }

/-- delete.go:194-202: the byte the remaining leaf gets; the test is `op.raw == root`. -/
def DelCur.newLeafKey (cur : DelCur) (other : Word) : Res UInt8 :=
  if cur.op.raw = cur.root then
    if cur.op.prefixLen > 0 then keyAt cur.key 0 else pure (keyByte other)
  else if cur.depth < cur.op.prefixLen + 1 then .error .index
  else keyAt cur.key (cur.depth - cur.op.prefixLen - 1)

/-- delete.go:143-261: the part of a visit after the prefix; `count` is the node's count, `plen` its prefix length field.
The local variables `a`, `p` are not needed later: the value is recorded here. -/
def childrenD (m : Mem) (cur : DelCur) (count plen : Nat) (data : Slice) : Res DPh := do
  let op := cur.op
  if cur.depth ≥ cur.key.length then return .miss cur.key
  else
    let k ← keyAt cur.key cur.depth
    if count ≥ fullAllocFrom then
      let a ← data.get m k.toNat
      let p := data.base + k.toNat
      if a = 0 then return .miss cur.key
      else if isLeaf a then
        return .held { cur with op := { op with
          raw := a, leafPtr := .slot p, kind := .deleteLeaf256, value := leafValue a } }
      else return .gen (cur.enterNode p a)
    else
      let ws ← data.words m count
      let (i, a) := scan k ws
      if keyByte a = k then
        if isLeaf a then
          let op := { op with leafPosition := i }
          if count = 2 then
            return .other { cur with op := { op with value := leafValue a } } (data.base + (1 - i)) plen
          else
            return .lock { cur with op := { op with count := count, kind := .deleteLeaf, value := leafValue a } }
        else return .gen (cur.enterNode (data.base + i) a)
      else return .miss cur.key

/-- delete.go:121-261: reading the node. -/
def bodyD (st : St) (cur : DelCur) : Res DPh := do
  let data ← st.nodeData cur.op.node
  let (plen, slots, data') ← skipPrefix st.mem data (nodePlen cur.op.raw)
  let op := { cur.op with data := data, prefixLen := plen, prefixSlots := slots }
  childrenD st.mem { cur with op := op, depth := cur.depth + plen } (nodeCount cur.op.raw) (nodePlen cur.op.raw) data'

/-- delete.go:79-263: one step of `prepare` (after `startOp`). -/
def stepD (st : St) : DPh → Res (DPh × St)
  | .start key =>
    -- delete.go:80-103
    if st.root = 0 then .ok (.miss key, st)
    else if isLeaf st.root then do
      let k ← keyAt key 0
      if keyByte st.root = k then return (.root key st.root, st) else return (.miss key, st)
    else .ok (.gen { op := { nodePtr := .root, raw := st.root }, key := key, root := st.root, depth := 0 }, st)
  | .root key root =>
    -- delete.go:87-94
    match st.lockLeafRoot root with
    | (false, st) => .ok (.start key, st)
    | (true, st) =>
      .ok (.held { op := { kind := .deleteRoot, raw := root, value := leafValue root }, key := key, root := root, depth := 0 }, st)
  | .gen cur => do
    -- delete.go:109-111
    let gen ← st.generation (nodeAddr cur.op.raw)
    return (.ptr { cur with op := { cur.op with node := nodeAddr cur.op.raw, nodeGen := gen } }, st)
  | .ptr cur =>
    -- delete.go:113-115
    if st.load cur.op.nodePtr ≠ cur.op.raw then .ok (.start cur.key, st) else .ok (.par cur, st)
  | .par cur =>
    -- delete.go:118-120
    if cur.op.parent = 0 then .ok (.body cur, st)
    else do
      let g ← st.generation cur.op.parent
      if cur.op.parentGen ≠ g then return (.start cur.key, st) else return (.body cur, st)
  | .body cur => do
    let ph ← bodyD st cur
    return (ph, st)
  | .lock cur =>
    -- delete.go:357-359 `lock`
    match st.lockNodes2 cur.op.node cur.op.nodeGen cur.op.parent cur.op.parentGen with
    | (true, st) => .ok (.held cur, st)
    | (false, st) => .ok (.start cur.key, st)
  | .other cur p plen =>
    -- delete.go:185-216
    if isLeaf (st.mem p) then do
      let newKey ← cur.newLeafKey (st.mem p)
      return (.lock { cur with op := { cur.op with
        newLeaf := updateLeafKey (st.mem p) newKey, count := 2, kind := .replaceNodeWithLeaf } }, st)
    else
      .ok (.cgen { cur with op := { cur.op with
        child := nodeAddr (st.mem p), count := nodeCount (st.mem p) } } p (st.mem p) plen, st)
  | .cgen cur p other plen => do
    -- delete.go:219-220
    let gen ← st.generation cur.op.child
    return (.cptr { cur with op := { cur.op with childGen := gen } } p other plen, st)
  | .cptr cur p other plen =>
    -- delete.go:222-224
    if st.mem p ≠ other then .ok (.start cur.key, st) else .ok (.lock3 cur other plen, st)
  | .lock3 cur other plen =>
    -- delete.go:227-245, 365-367 `lock3`
    let op := cur.op
    match st.lockNodes3 op.child op.childGen op.node op.nodeGen op.parent op.parentGen with
    | (false, st) => .ok (.start cur.key, st)
    | (true, st) => do
      let (pfx, _) ← appendPrefix st.mem [] op.data plen
      let pfx := pfx ++ [keyByte other]
      let data ← st.nodeData op.child
      let (pfx, slots) ← appendPrefix st.mem pfx data (nodePlen other)
      return (.held { cur with op := { op with
        pfx := pfx, data := data, prefixSlots := slots, kind := .replaceNodeWithNode } }, st)
  | .miss key => .ok (.miss key, st)
  | .held cur => .ok (.held cur, st)
  | .tail r tl => .ok (.tail r tl, st)

/-- delete.go:268-327 `Finalize`, for allocator `a`, up to the publication of the change. -/
def publishD (st : St) (a : Nat) (op : DelOp) : Res (Bool × Tail × St) := do
  match op.kind with
  | .deleteRoot =>
    return (true, { unl := .root, items := -1 }, st.store .root 0)
  | .replaceNodeWithLeaf =>
    let st := st.store op.nodePtr op.newLeaf
    return (true, { unl := .two op.node op.parent, free := some (op.node, op.count + op.prefixSlots), items := -1 }, st)
  | .replaceNodeWithNode =>
    let (newNode, dst, st) ← st.allocNodeP a op.count op.pfx
    let src ← op.data.drop op.prefixSlots
    let ws ← src.words st.mem op.count
    let m := dst.copy st.mem ws
    let st := { st with mem := m }.store op.nodePtr
      (buildNode (keyByte op.raw) newNode op.count op.pfx.length)
    return (true, { unl := .three op.child op.node op.parent, free := some (op.child, op.count + op.prefixSlots),
                    items := -1 }, st)
  | .deleteLeaf =>
    let (newNode, dst, st) ← st.allocNode a (op.count - 1) op.prefixLen
    let _ ← op.data.words st.mem (op.count + op.prefixSlots)
    let split := op.prefixSlots + op.leafPosition
    let ws1 ← op.data.words st.mem split
    let m := dst.copy st.mem ws1
    let src2 ← op.data.drop (split + 1)
    let ws2 ← src2.words m (op.count + op.prefixSlots - (split + 1))
    let dst2 ← dst.drop split
    let m := dst2.copy m ws2
    let st := { st with mem := m }.store op.nodePtr
      (buildNode (keyByte op.raw) newNode (op.count - 1) op.prefixLen)
    return (true, { unl := .two op.node op.parent, free := some (op.node, op.count + op.prefixSlots), items := -1 }, st)
  | .deleteLeaf256 =>
    let (b, st) := st.cas op.leafPtr op.raw 0
    return (b, { items := if b then -1 else 0 }, st)
  | .notFound => return (false, {}, st)

/-- delete.go:268-335 `Finalize`, for allocator `a`, up to the store or compare-and-swap that publishes the change.  `publishD` is this
function followed by `St.commit` (`publishD_eq`, `Verif/Split.lean`); a `notFound` operation publishes nothing. -/
def buildD (st : St) (a : Nat) (op : DelOp) : Res (Commit × St) := do
  match op.kind with
  | .deleteRoot => return ({ ptr := .root, new := 0, ok := { unl := .root, items := -1 } }, st)
  | .replaceNodeWithLeaf =>
    return ({ ptr := op.nodePtr, new := op.newLeaf,
              ok := { unl := .two op.node op.parent, free := some (op.node, op.count + op.prefixSlots), items := -1 } }, st)
  | .replaceNodeWithNode =>
    let (newNode, dst, st) ← st.allocNodeP a op.count op.pfx
    let src ← op.data.drop op.prefixSlots
    let ws ← src.words st.mem op.count
    let m := dst.copy st.mem ws
    return ({ ptr := op.nodePtr, new := buildNode (keyByte op.raw) newNode op.count op.pfx.length,
              nodes := [(newNode, op.count + prefixSlots op.pfx.length)],
              ok := { unl := .three op.child op.node op.parent, free := some (op.child, op.count + op.prefixSlots),
                      items := -1 } }, { st with mem := m })
  | .deleteLeaf =>
    let (newNode, dst, st) ← st.allocNode a (op.count - 1) op.prefixLen
    let _ ← op.data.words st.mem (op.count + op.prefixSlots)
    let split := op.prefixSlots + op.leafPosition
    let ws1 ← op.data.words st.mem split
    let m := dst.copy st.mem ws1
    let src2 ← op.data.drop (split + 1)
    let ws2 ← src2.words m (op.count + op.prefixSlots - (split + 1))
    let dst2 ← dst.drop split
    let m := dst2.copy m ws2
    return ({ ptr := op.nodePtr, new := buildNode (keyByte op.raw) newNode (op.count - 1) op.prefixLen,
              nodes := [(newNode, op.count - 1 + prefixSlots op.prefixLen)],
              ok := { unl := .two op.node op.parent, free := some (op.node, op.count + op.prefixSlots), items := -1 } },
            { st with mem := m })
  | .deleteLeaf256 =>
    return ({ ptr := op.leafPtr, exp := some op.raw, new := 0, ok := { items := -1 } }, st)
  | .notFound => .error .index

/-- delete.go:268-335 `Finalize` without interruption. -/
def finalizeD (st : St) (a : Nat) (op : DelOp) : Res (Bool × St) := do
  let (b, tl, st) ← publishD st a op
  let st ← st.runTail a tl
  return (b, st)

/-- delete.go:337-347 `Abort`.  Line 344 passes the nodes in the order parent, node, child although
`unlockNodes3` expects child, node, parent. -/
def abortD (st : St) (a : Nat) (op : DelOp) : Res St := do
  match op.kind with
  | .deleteRoot => return (st.unlockRoot).endOp a
  | .deleteLeaf | .replaceNodeWithLeaf =>
    let st ← st.unlockNodes2 op.node op.parent
    return st.endOp a
  | .replaceNodeWithNode =>
    let st ← st.unlockNodes3 op.parent op.node op.child
    return st.endOp a
  | _ => return st.endOp a

end Radix
