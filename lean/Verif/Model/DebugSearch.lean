import Verif.Model.Debug
import Verif.Model.Search
/-!
# `debugSearch` and `isLocked`

Both are defined in the package and called by nothing in it.  As in `Model/Debug.lean`, the output is modelled as data: what is printed, in
which order, without the layout of the text; the heading (radix.go:575) is left out.
-/
set_option autoImplicit false
namespace Radix

/-- radix.go:585-639: the loop of `debugSearch`.  The result, and what `debugPrintNode` prints for the nodes visited.  `fuel` bounds the
number of nodes visited. -/
def debugSearchLoop (st : St) (key : Key) : Nat → Word → Nat → Res (Word × List Printed)
  | 0, _, _ => .error .fuel
  | fuel + 1, raw, depth => do
    let out ← debugPrintNode st raw
    let data ← st.nodeData (nodeAddr raw)
    let (plen, _, data) ← skipPrefix st.mem data (nodePlen raw)
    let depth := depth + plen
    if depth ≥ key.length then return (0, [out])
    else
      let k ← keyAt key depth
      if nodeCount raw ≥ fullAllocFrom then
        let a ← data.get st.mem k.toNat
        if a = 0 then return (0, [out])
        else if isLeaf a then return (leafValue a, [out])
        else
          let (v, outs) ← debugSearchLoop st key fuel a (depth + 1)
          return (v, out :: outs)
      else
        let ws ← data.words st.mem (nodeCount raw)
        let a := (scan k ws).2
        if keyByte a = k then
          if isLeaf a then return (leafValue a, [out])
          else
            let (v, outs) ← debugSearchLoop st key fuel a (depth + 1)
            return (v, out :: outs)
        else return (0, [out])

/-- radix.go:574-640 `debugSearch`. -/
def debugSearch (st : St) (key : Key) : Res (Word × List Printed) :=
  if isLeaf st.root then do
    let k ← keyAt key 0
    if keyByte st.root = k then return (leafValue st.root, []) else return (0, [])
  else debugSearchLoop st key (key.length + 1) st.root 0

/-- locks.go:34-38 `isLocked`. -/
def St.isLocked (st : St) (node : Nat) : Res Bool :=
  if node / blockSlots < st.nblocks then .ok (decide (st.gen node % 2 = 1)) else .error .nilBlock

end Radix
