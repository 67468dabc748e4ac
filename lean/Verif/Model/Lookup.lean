import Verif.Model.Search
/-!
# Lookup, one load at a time (`radix.go:508-572`)

The same search as `Verif.Model.Search`, as a state machine that performs one load of shared memory per step.
-/
namespace Radix

/-- Control state of a lookup.  `node`: at the head of `searchLoop`; `slot`: about to load the slot of a 256-slot node;
`scan`: about to load child `i` of a variable sized node; `done`: about to return. -/
inductive RPh
  | start (key : Key)
  | node (key : Key) (raw : Word) (depth : Nat)
  | slot (key : Key) (data : Slice) (k : UInt8) (depth : Nat)
  | scan (key : Key) (data : Slice) (i count : Nat) (k : UInt8) (depth : Nat)
  | done (key : Key) (res : Option Word)

/-- radix.go:512-571: one step of `search`. -/
def stepR (st : St) : RPh → Res RPh
  | .start key =>
    -- radix.go:510-517
    if isLeaf st.root then do
      let k ← keyAt key 0
      if keyByte st.root = k then return .done key (some (leafValue st.root)) else return .done key none
    else return .node key st.root 0
  | .node key raw depth => do
    -- radix.go:520-539; the only load is that of the prefix length word
    let data ← st.nodeData (nodeAddr raw)
    let (plen, _, data) ← skipPrefix st.mem data (nodePlen raw)
    let depth := depth + plen
    if depth ≥ key.length then return .done key none
    else
      let k ← keyAt key depth
      if nodeCount raw ≥ fullAllocFrom then return .slot key data k depth
      else if nodeCount raw ≤ data.len then return .scan key data 0 (nodeCount raw) k depth
      else .error .index
  | .slot key data k depth => do
    -- radix.go:540-550
    let a ← data.get st.mem k.toNat
    if a = 0 then return .done key none
    else if isLeaf a then return .done key (some (leafValue a))
    else return .node key a (depth + 1)
  | .scan key data i count k depth => do
    -- radix.go:555-570
    let a ← data.get st.mem i
    if keyByte a ≥ k ∨ i + 1 ≥ count then
      if keyByte a = k then
        if isLeaf a then return .done key (some (leafValue a))
        else return .node key a (depth + 1)
      else return .done key none
    else return .scan key data (i + 1) count k depth
  | .done key res => return .done key res

end Radix
