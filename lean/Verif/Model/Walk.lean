import Verif.Model.Search
/-!
# Prefix search, minimum, maximum, counting (`radix.go:314-498`, `counter.go`)

These functions only read.  They are modelled on one state of the memory (a tree nobody changes during the call); the
reservation of an epoch (`counter.go:49-52`) then has no effect and is left out.  Loops whose number of rounds depends on the
tree take a bound `fuel` and fail with `Panic.fuel` when it is too small.
-/
set_option autoImplicit false
namespace Radix

/-- Outcome of comparing the rest of a search prefix with a node's prefix. -/
inductive PCmp
  | inside -- the search prefix ends inside the node's prefix
  | miss   -- a byte differs
  | all    -- the node's prefix is a prefix of the rest
  deriving DecidableEq, Repr

/-- radix.go:335-344: the comparison loop. -/
def cmpSearch : Key → List UInt8 → PCmp
  | _, [] => .all
  | [], _ :: _ => .inside
  | x :: xs, y :: ys => if x ≠ y then .miss else cmpSearch xs ys

/-- radix.go:357-389: the part of a visit after the prefix; `.inl` is the result, `.inr` the node to go on with. -/
def partialKids (m : Mem) (raw : Word) (data : Slice) (k : UInt8) (depth : Nat) : Res ((Word × Nat) ⊕ Word) :=
  if nodeCount raw ≥ fullAllocFrom then do
    let a ← data.get m k.toNat
    if a = 0 then return .inl (0, 0)
    else if isLeaf a then return .inl (a, depth)
    else return .inr a
  else do
    let ws ← data.words m (nodeCount raw)
    let a := (scan k ws).2
    if keyByte a = k then
      if isLeaf a then return .inl (a, depth)
      else return .inr a
    else return .inl (0, depth)

/-- radix.go:327-390: the loop of `partialSearch`.  Every round consumes at least one byte of `sp`. -/
def partialLoop (st : St) (sp : Key) : Nat → Word → Nat → Res (Word × Nat)
  | 0, _, _ => .error .fuel
  | fuel + 1, raw, depth =>
    if depth ≥ sp.length then .ok (raw, depth)
    else do
      let data ← st.nodeData (nodeAddr raw)
      if nodePlen raw > 0 then
        let (buf, slots) ← appendPrefix st.mem [] data (nodePlen raw)
        let data ← data.drop slots
        match cmpSearch (sp.drop depth) buf with
        | .inside => return (raw, depth)
        | .miss => return (0, 0)
        | .all =>
          if depth + buf.length ≥ sp.length then return (raw, depth)
          else
            let depth := depth + buf.length
            let k ← keyAt sp depth
            match ← partialKids st.mem raw data k depth with
            | .inl r => return r
            | .inr a => partialLoop st sp fuel a (depth + 1)
      else
        let k ← keyAt sp depth
        match ← partialKids st.mem raw data k depth with
        | .inl r => return r
        | .inr a => partialLoop st sp fuel a (depth + 1)

/-- radix.go:314-391 `partialSearch`. -/
def partialSearch (st : St) (sp : Key) : Res (Word × Nat) :=
  if sp.length = 0 then .ok (st.root, 0)
  else if isLeaf st.root then do
    let k ← keyAt sp 0
    if keyByte st.root = k then return (st.root, 0) else return (0, 0)
  else partialLoop st sp (sp.length + 1) st.root 0

/-- radix.go:408-440: the loop of `MaxKey`. -/
def maxLoop (st : St) : Nat → Word → Res (Option Word)
  | 0, _ => .error .fuel
  | fuel + 1, raw => do
    let data ← st.nodeData (nodeAddr raw)
    let (_, _, data) ← skipPrefix st.mem data (nodePlen raw)
    if nodeCount raw ≥ fullAllocFrom then
      let ws ← data.words st.mem 256
      match ws.reverse.find? (· ≠ 0) with
      | none => return none
      | some a => if isLeaf a then return some (leafValue a) else maxLoop st fuel a
    else
      let a ← data.get st.mem (nodeCount raw - 1)
      if isLeaf a then return some (leafValue a) else maxLoop st fuel a

/-- radix.go:398-441 `MaxKey`; `none` is `(0, false)`. -/
def maxKey (st : St) (fuel : Nat) (sp : Key) : Res (Option Word) := do
  let (raw, _) ← partialSearch st sp
  if raw = 0 then return none
  else if isLeaf raw then return some (leafValue raw)
  else maxLoop st fuel raw

/-- radix.go:458-495: the loop of `MinKey`. -/
def minLoop (st : St) : Nat → Word → Res (Option Word)
  | 0, _ => .error .fuel
  | fuel + 1, raw => do
    let data ← st.nodeData (nodeAddr raw)
    let (_, _, data) ← skipPrefix st.mem data (nodePlen raw)
    if nodeCount raw ≥ fullAllocFrom then
      let ws ← data.words st.mem (nodeCount raw)
      match ws.find? (· ≠ 0) with
      | none => return none
      | some a => if isLeaf a then return some (leafValue a) else minLoop st fuel a
    else
      let a ← data.get st.mem 0
      if isLeaf a then return some (leafValue a) else minLoop st fuel a

/-- radix.go:448-496 `MinKey`. -/
def minKey (st : St) (fuel : Nat) (sp : Key) : Res (Option Word) := do
  let (raw, _) ← partialSearch st sp
  if raw = 0 then return none
  else if isLeaf raw then return some (leafValue raw)
  else minLoop st fuel raw

/-- The loop over the children of a node from position `k` on, `n` children left (counter.go:84-110, iterator.go:178-203):
the values of the leaves up to the first child that is a node, and that child. -/
def scanKids (m : Mem) (data : Slice) : Nat → Nat → Res (List Word × Option (Nat × Word))
  | 0, _ => .ok ([], none)
  | n + 1, k => do
    let a ← data.get m k
    if a = 0 then scanKids m data n (k + 1)
    else if isLeaf a then
      let r ← scanKids m data n (k + 1)
      return (leafValue a :: r.1, r.2)
    else return ([], some (k, a))

/-- The position of the next non-empty child from position `k` on, `n` children left (counter.go:94-98, iterator.go:127-131,
188-192). -/
def nextKid (m : Mem) (data : Slice) : Nat → Nat → Res Nat
  | 0, k => .ok k
  | n + 1, k => do
    let a ← data.get m k
    if a ≠ 0 then return k else nextKid m data n (k + 1)

/-- counter.go:91-99, iterator.go:186-193: the position after child `k`. -/
def afterKid (m : Mem) (data : Slice) (count k : Nat) : Res Nat :=
  if count ≥ fullAllocFrom then nextKid m data (count - (k + 1)) (k + 1) else .ok (k + 1)

/-- counter.go:14-24 `Counter` (without `Elapsed`), the results of `Count` and its position `p`. -/
structure Counter where
  raw : Word
  nextChild : Nat := 0
  stack : List (Word × Nat) := []
  nodes : Nat := 0
  leaves : Nat := 0
  nodesWithPrefix : Nat := 0
  nodeSizes : Nat → Nat := fun _ => 0
  totalPrefixLength : Nat := 0
  totalPrefixBytes : Nat := 0
  largePrefixes : Nat := 0

/-- counter.go:69-82: the statistics of a visit. -/
def Counter.visit (c : Counter) (plenField plen slots count : Nat) : Counter :=
  let c := if plenField > 0 then
      { c with
        largePrefixes := if plenField = 255 then c.largePrefixes + 1 else c.largePrefixes
        nodesWithPrefix := c.nodesWithPrefix + 1
        totalPrefixBytes := c.totalPrefixBytes + slots * 8
        totalPrefixLength := c.totalPrefixLength + plen }
    else c
  { c with nodeSizes := upd c.nodeSizes count (c.nodeSizes count + 1) }

/-- counter.go:66-115: the loop of `Count`. -/
def countLoop (st : St) : Nat → Counter → Res Counter
  | 0, _ => .error .fuel
  | fuel + 1, c => do
    let count := nodeCount c.raw
    let data ← st.nodeData (nodeAddr c.raw)
    let (plen, slots, data) ← skipPrefix st.mem data (nodePlen c.raw)
    let c := c.visit (nodePlen c.raw) plen slots count
    let (vs, r) ← scanKids st.mem data (count - c.nextChild) c.nextChild
    let c := { c with leaves := c.leaves + vs.length }
    match r with
    | some (k, a) =>
      let next ← afterKid st.mem data count k
      countLoop st fuel { c with
        nodes := c.nodes + 1
        stack := if next < count then (c.raw, next) :: c.stack else c.stack
        raw := a
        nextChild := 0 }
    | none =>
      match c.stack with
      | [] => return c
      | (raw, k) :: stack => countLoop st fuel { c with raw := raw, nextChild := k, stack := stack }

/-- counter.go:46-119 `Count` (the fields `nodes` and `leaves` are its results). -/
def count (st : St) (fuel : Nat) (sp : Key) : Res Counter := do
  let (raw, _) ← partialSearch st sp
  if raw = 0 then return { raw := raw }
  else if isLeaf raw then return { raw := raw, leaves := 1 }
  else countLoop st fuel { raw := raw, nodes := 1 }

end Radix
