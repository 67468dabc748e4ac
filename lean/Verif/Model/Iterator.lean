import Verif.Model.Walk
/-!
# Iterators (`iterator.go`)

As in `Verif.Model.Walk`, one call of `Next` works on one state of the memory; different calls may see different states.
-/
set_option autoImplicit false
namespace Radix

/-- iterator.go:8-10 `defaultPrefetchLength`. -/
def prefetchLength : Nat := 256

/-- iterator.go:12-16 `position`. -/
structure ItPos where
  raw : Word
  k : Nat
  more : Bool
  deriving DecidableEq, Repr

/-- iterator.go:23-32 `Iterator` (the stack is local to a call of `Next`, iterator.go:67). -/
structure Iter where
  searchPrefix : Key
  value : Word := 0
  prefetched : List Word := []
  pp : Nat := 0
  resumeAt : List UInt8 := []
  done : Bool := false
  deriving DecidableEq, Repr

/-- iterator.go:40-45, 289-297 `NewIterator`, `Reset`. -/
def Iter.new (sp : Key) : Iter := { searchPrefix := sp }

/-- iterator.go:94-157: the walk along `resumeAt`.  `k`: loop variable; the innermost stack entry comes first. -/
def seekLoop (st : St) (resumeAt : List UInt8) : Nat → Nat → Word → List ItPos → Res (Word × Nat × List ItPos)
  | 0, _, _, _ => .error .fuel
  | fuel + 1, k, raw, stack =>
    if k < resumeAt.length then do
      let count := nodeCount raw
      let data ← st.nodeData (nodeAddr raw)
      let (plen, _, data) ← skipPrefix st.mem data (nodePlen raw)
      let k := k + plen
      if k ≥ resumeAt.length then return (raw, 0, stack)
      else
        let char ← keyAt resumeAt k
        if count ≥ fullAllocFrom then
          let a ← data.get st.mem char.toNat
          if a ≠ 0 ∧ keyByte a = char then
            if isLeaf a then return (raw, char.toNat, stack)
            else
              let next ← nextKid st.mem data (count - (char.toNat + 1)) (char.toNat + 1)
              seekLoop st resumeAt fuel (k + 1) a (⟨raw, next, next < count⟩ :: stack)
          else return (raw, 0, stack)
        else
          let ws ← data.words st.mem count
          match ws.findIdx? (fun a => keyByte a = char) with
          | some l =>
            let a := ws.getD l 0
            if isLeaf a then return (raw, l, stack)
            else seekLoop st resumeAt fuel (k + 1) a (⟨raw, l + 1, l + 1 < count⟩ :: stack)
          | none => return (raw, 0, stack)
    else .ok (raw, 0, stack)

/-- iterator.go:254-261: drop the entries without further children from the top of the stack, but not the last one. -/
def trimStack : List ItPos → List ItPos
  | [] => []
  | [p] => [p]
  | p :: q :: s => if p.more then p :: q :: s else trimStack (q :: s)

/-- iterator.go:264-281: the partial key of the position to go on with; `ps` from the bottom of the stack. -/
def resumeLoop (st : St) : Bool → List ItPos → List UInt8 → Res (List UInt8)
  | _, [], acc => .ok acc
  | first, p :: ps, acc => do
    let data ← st.nodeData (nodeAddr p.raw)
    let acc := if first then acc else acc ++ [keyByte p.raw]
    let (acc, slots) ← appendPrefix st.mem acc data (nodePlen p.raw)
    match ps with
    | [] =>
      let a ← data.get st.mem (slots + p.k)
      return acc ++ [keyByte a]
    | _ => resumeLoop st false ps acc

/-- iterator.go:253-282 `storeResumePosition`. -/
def storeResume (st : St) (stack : List ItPos) : Res (List UInt8) := resumeLoop st true (trimStack stack).reverse []

/-- iterator.go:163-222: the scan.  Result: the prefetched values, and the partial key to go on with (`none`: done). -/
def scanLoop (st : St) : Nat → Word → Nat → List ItPos → List Word → Res (List Word × Option (List UInt8))
  | 0, _, _, _, _ => .error .fuel
  | fuel + 1, raw, nextChild, stack, pf => do
    let count := nodeCount raw
    let data ← st.nodeData (nodeAddr raw)
    let (_, _, data) ← skipPrefix st.mem data (nodePlen raw)
    let (vs, r) ← scanKids st.mem data (count - nextChild) nextChild
    let pf := pf ++ vs
    match r with
    | some (k, a) =>
      let next ← afterKid st.mem data count k
      scanLoop st fuel a 0 (⟨raw, next, next < count⟩ :: stack) pf
    | none =>
      match stack with
      | [] => return (pf, none)
      | pos :: rest =>
        if pf.length > prefetchLength then
          let key ← storeResume st stack
          return (pf, some key)
        else scanLoop st fuel pos.raw pos.k rest pf

/-- iterator.go:73-79: the subtree to scan. -/
def Iter.start (st : St) (sp : Key) : Res (Word × Nat) := if sp.length > 0 then partialSearch st sp else .ok (st.root, 0)

/-- iterator.go:51-233 `Next`: its result and the new state of the iterator. -/
def Iter.next (st : St) (fuel : Nat) (it : Iter) : Res (Bool × Iter) :=
  match it.prefetched[it.pp]? with
  | some v => .ok (true, { it with value := v, pp := it.pp + 1 })
  | none =>
    if it.done then .ok (false, it)
    else do
      let (raw, _) ← Iter.start st it.searchPrefix
      if raw = 0 then return (false, { it with done := true })
      else if isLeaf raw then return (true, { it with pp := 0, value := leafValue raw, done := true })
      else
        let (raw, nextChild, stack) ← seekLoop st it.resumeAt (it.resumeAt.length + 1) 0 raw []
        let (pf, res) ← scanLoop st fuel raw nextChild stack []
        let it := match res with
          | some key => { it with prefetched := pf, resumeAt := key }
          | none => { it with prefetched := pf, done := true }
        match pf with
        | v :: _ => return (true, { it with value := v, pp := 1 })
        | [] => return (false, it)

/-- `n` calls of `Next`: the value after each call that returned true, `none` for a call that returned false. -/
def Iter.run (st : St) (fuel : Nat) : Nat → Iter → Res (List (Option Word))
  | 0, _ => .ok []
  | n + 1, it => do
    let (ok, it) ← it.next st fuel
    let r ← Iter.run st fuel n it
    return (if ok then some it.value else none) :: r

end Radix
