import Verif.Model.Locks
import Verif.Model.Alloc
/-!
# Lookup (`radix.go:508-572`)
-/
namespace Radix

/-- radix.go:518-571: the search loop.  `fuel` bounds the number of nodes visited; `Tree.search` passes enough
(theorem `search_fuel`). -/
def searchLoop (st : St) (key : Key) : Nat → Word → Nat → Res (Option Word)
  | 0, _, _ => .error .fuel
  | fuel + 1, raw, depth => do
    let data ← st.nodeData (nodeAddr raw)
    let (plen, _, data) ← skipPrefix st.mem data (nodePlen raw)
    let depth := depth + plen
    if depth ≥ key.length then return none
    else
      let k ← keyAt key depth
      if nodeCount raw ≥ fullAllocFrom then
        let a ← data.get st.mem k.toNat
        if a = 0 then return none
        else if isLeaf a then return some (leafValue a)
        else searchLoop st key fuel a (depth + 1)
      else
        let ws ← data.words st.mem (nodeCount raw)
        let a := (scan k ws).2
        if keyByte a = k then
          if isLeaf a then return some (leafValue a)
          else searchLoop st key fuel a (depth + 1)
        else return none

/-- radix.go:508-572 `search`; `none` is `(0, false)`, `some v` is `(v, true)`. -/
def search (st : St) (key : Key) : Res (Option Word) :=
  if isLeaf st.root then do
    let k ← keyAt key 0
    if keyByte st.root = k then return some (leafValue st.root) else return none
  else searchLoop st key (key.length + 1) st.root 0

/-- allocator.go:88-93 `Allocator.Lookup`. -/
def lookup (st : St) (a : Nat) (key : Key) : Res (Option Word × St) := do
  let st := st.startOp a
  let r ← search st key
  return (r, st.endOp a)

end Radix
