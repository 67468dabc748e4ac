import Verif.Model.Iterator
/-!
# The readers as sequences of loads

`partialSearch`, `MinKey`, `MaxKey`, `Count` and `Next` once more, now as programs that load one word at a time, in the order of
the code, so that other operations may run between two loads.  `Prog.run` runs a program on one state of the memory; that this
gives the functions of `Verif.Model.Walk` and `Verif.Model.Iterator` is shown in `Verif.ReadersProof`.

Simplifications: the block table `idx.blocks` is read once per node, and only its length is modelled (`St.nblocks`).
-/
set_option autoImplicit false
namespace Radix

/-- A program that loads words and ends with a result. -/
inductive Prog (α : Type) : Type
  | ret (r : Res α)
  | root (k : Word → Prog α)          -- load `idx.root`
  | blocks (k : Nat → Prog α)         -- read the number of blocks
  | load (x : Nat) (k : Word → Prog α) -- load a slot

namespace Prog

def bind {α β : Type} : Prog α → (α → Prog β) → Prog β
  | .ret (.ok a), f => f a
  | .ret (.error e), _ => .ret (.error e)
  | .root k, f => .root fun w => (k w).bind f
  | .blocks k, f => .blocks fun n => (k n).bind f
  | .load x k, f => .load x fun w => (k w).bind f

instance : Monad Prog where
  pure a := .ret (.ok a)
  bind := Prog.bind

/-- All loads on one state. -/
def run {α : Type} (st : St) : Prog α → Res α
  | .ret r => r
  | .root k => (k st.root).run st
  | .blocks k => (k st.nblocks).run st
  | .load x k => (k (st.mem x)).run st

end Prog

/-- radix.go:284-291 `getNodeData`. -/
def nodeDataP (node : Nat) : Prog Slice :=
  .blocks fun nb => .ret (if node / blockSlots < nb then .ok ⟨node, blockSlots - node % blockSlots⟩ else .error .nilBlock)

/-- `atomic.LoadUint64(&s[i])` or `s[i]`. -/
def Slice.getP (s : Slice) (i : Nat) : Prog Word :=
  if i < s.len then .load (s.base + i) fun w => .ret (.ok w) else .ret (.error .index)

/-- The loads of a `memmove`. -/
def loadWords (base : Nat) : Nat → Prog (List Word)
  | 0 => pure []
  | n + 1 => .load base fun w => do
    let ws ← loadWords (base + 1) n
    return w :: ws

/-- The first `n` bytes of the words. -/
def bytesOfWords (ws : List Word) (n : Nat) : List UInt8 := (List.range n).map fun i => byteOf (ws.getD (i / 8) 0) (i % 8)

/-- unsafe.go:30-56 `appendPrefix`. -/
def appendPrefixP (dst : List UInt8) (src : Slice) (length : Nat) : Prog (List UInt8 × Nat) :=
  if length = 0 then pure (dst, 0)
  else if length = 255 then do
    let w ← src.getP 0
    let length := w.toNat
    let src ← Prog.ret (src.drop 1)
    let _ ← Prog.ret (if 0 < src.len then .ok () else .error .index)
    let ws ← loadWords src.base ((length + 7) / 8)
    return (dst ++ bytesOfWords ws length, (length + 15) / 8)
  else do
    let _ ← Prog.ret (if 0 < src.len then .ok () else .error .index)
    let ws ← loadWords src.base ((length + 7) / 8)
    return (dst ++ bytesOfWords ws length, (length + 7) / 8)

/-- radix.go:412-421, 464-473, iterator.go:100-113, 168-175, counter.go:69-80: skip the prefix. -/
def skipPrefixP (data : Slice) (plen : Nat) : Prog (Nat × Nat × Slice) :=
  if plen > 0 then
    if plen = 255 then do
      let w ← data.getP 0
      let data ← Prog.ret (data.drop ((w.toNat + 15) / 8))
      return (w.toNat, (w.toNat + 15) / 8, data)
    else do
      let data ← Prog.ret (data.drop ((plen + 7) / 8))
      return (plen, (plen + 7) / 8, data)
  else pure (0, 0, data)

/-- radix.go:374-380: load the children from position `i` on, `n` left, until one has a byte `≥ k`; the last word loaded. -/
def scanP (data : Slice) (k : UInt8) : Nat → Nat → Word → Prog Word
  | 0, _, a => pure a
  | n + 1, i, _ => do
    let a ← data.getP i
    if keyByte a ≥ k then return a else scanP data k n (i + 1) a

/-- `data[:n]`: the check of the bounds. -/
def Slice.checkP (s : Slice) (n : Nat) : Prog Unit := .ret (if n ≤ s.len then .ok () else .error .index)

/-- radix.go:357-389. -/
def partialKidsP (raw : Word) (data : Slice) (k : UInt8) (depth : Nat) : Prog ((Word × Nat) ⊕ Word) :=
  if nodeCount raw ≥ fullAllocFrom then do
    let a ← data.getP k.toNat
    if a = 0 then return .inl (0, 0)
    else if isLeaf a then return .inl (a, depth)
    else return .inr a
  else do
    data.checkP (nodeCount raw)
    let a ← scanP data k (nodeCount raw) 0 0
    if keyByte a = k then
      if isLeaf a then return .inl (a, depth)
      else return .inr a
    else return .inl (0, depth)

/-- radix.go:327-390: the loop of `partialSearch`. -/
def partialLoopP (sp : Key) : Nat → Word → Nat → Prog (Word × Nat)
  | 0, _, _ => .ret (.error .fuel)
  | fuel + 1, raw, depth =>
    if depth ≥ sp.length then pure (raw, depth)
    else do
      let data ← nodeDataP (nodeAddr raw)
      if nodePlen raw > 0 then
        let (buf, slots) ← appendPrefixP [] data (nodePlen raw)
        let data ← Prog.ret (data.drop slots)
        match cmpSearch (sp.drop depth) buf with
        | .inside => return (raw, depth)
        | .miss => return (0, 0)
        | .all =>
          if depth + buf.length ≥ sp.length then return (raw, depth)
          else
            let depth := depth + buf.length
            let k ← Prog.ret (keyAt sp depth)
            match ← partialKidsP raw data k depth with
            | .inl r => return r
            | .inr a => partialLoopP sp fuel a (depth + 1)
      else
        let k ← Prog.ret (keyAt sp depth)
        match ← partialKidsP raw data k depth with
        | .inl r => return r
        | .inr a => partialLoopP sp fuel a (depth + 1)

/-- radix.go:314-391 `partialSearch`. -/
def partialSearchP (sp : Key) : Prog (Word × Nat) :=
  .root fun root =>
    if sp.length = 0 then pure (root, 0)
    else if isLeaf root then do
      let k ← Prog.ret (keyAt sp 0)
      if keyByte root = k then return (root, 0) else return (0, 0)
    else partialLoopP sp (sp.length + 1) root 0

/-- radix.go:424-433: the last child that is not empty, from position `n - 1` down. -/
def lastKidP (data : Slice) : Nat → Prog (Option Word)
  | 0 => pure none
  | n + 1 => do
    let a ← data.getP n
    if a ≠ 0 then return some a else lastKidP data n

/-- radix.go:476-485: the first child that is not empty, from position `i` on, `n` left. -/
def firstKidP (data : Slice) : Nat → Nat → Prog (Option Word)
  | 0, _ => pure none
  | n + 1, i => do
    let a ← data.getP i
    if a ≠ 0 then return some a else firstKidP data n (i + 1)

/-- radix.go:408-440: the loop of `MaxKey`. -/
def maxLoopP : Nat → Word → Prog (Option Word)
  | 0, _ => .ret (.error .fuel)
  | fuel + 1, raw => do
    let data ← nodeDataP (nodeAddr raw)
    let (_, _, data) ← skipPrefixP data (nodePlen raw)
    if nodeCount raw ≥ fullAllocFrom then
      match ← lastKidP data 256 with
      | none => return none
      | some a => if isLeaf a then return some (leafValue a) else maxLoopP fuel a
    else
      let a ← data.getP (nodeCount raw - 1)
      if isLeaf a then return some (leafValue a) else maxLoopP fuel a

/-- radix.go:398-441 `MaxKey`. -/
def maxKeyP (fuel : Nat) (sp : Key) : Prog (Option Word) := do
  let (raw, _) ← partialSearchP sp
  if raw = 0 then return none
  else if isLeaf raw then return some (leafValue raw)
  else maxLoopP fuel raw

/-- radix.go:458-495: the loop of `MinKey`. -/
def minLoopP : Nat → Word → Prog (Option Word)
  | 0, _ => .ret (.error .fuel)
  | fuel + 1, raw => do
    let data ← nodeDataP (nodeAddr raw)
    let (_, _, data) ← skipPrefixP data (nodePlen raw)
    if nodeCount raw ≥ fullAllocFrom then
      data.checkP (nodeCount raw)
      match ← firstKidP data (nodeCount raw) 0 with
      | none => return none
      | some a => if isLeaf a then return some (leafValue a) else minLoopP fuel a
    else
      let a ← data.getP 0
      if isLeaf a then return some (leafValue a) else minLoopP fuel a

/-- radix.go:448-496 `MinKey`. -/
def minKeyP (fuel : Nat) (sp : Key) : Prog (Option Word) := do
  let (raw, _) ← partialSearchP sp
  if raw = 0 then return none
  else if isLeaf raw then return some (leafValue raw)
  else minLoopP fuel raw

/-- counter.go:84-110, iterator.go:178-203: the loop over the children from position `k` on, `n` left. -/
def scanKidsP (data : Slice) : Nat → Nat → Prog (List Word × Option (Nat × Word))
  | 0, _ => pure ([], none)
  | n + 1, k => do
    let a ← data.getP k
    if a = 0 then scanKidsP data n (k + 1)
    else if isLeaf a then
      let r ← scanKidsP data n (k + 1)
      return (leafValue a :: r.1, r.2)
    else return ([], some (k, a))

/-- counter.go:94-98, iterator.go:127-131, 188-192. -/
def nextKidP (data : Slice) : Nat → Nat → Prog Nat
  | 0, k => pure k
  | n + 1, k => do
    let a ← data.getP k
    if a ≠ 0 then return k else nextKidP data n (k + 1)

/-- counter.go:91-99, iterator.go:186-193. -/
def afterKidP (data : Slice) (count k : Nat) : Prog Nat :=
  if count ≥ fullAllocFrom then nextKidP data (count - (k + 1)) (k + 1) else pure (k + 1)

/-- counter.go:66-115: the loop of `Count`. -/
def countLoopP : Nat → Counter → Prog Counter
  | 0, _ => .ret (.error .fuel)
  | fuel + 1, c => do
    let count := nodeCount c.raw
    let data ← nodeDataP (nodeAddr c.raw)
    let (plen, slots, data) ← skipPrefixP data (nodePlen c.raw)
    let c := c.visit (nodePlen c.raw) plen slots count
    let (vs, r) ← scanKidsP data (count - c.nextChild) c.nextChild
    let c := { c with leaves := c.leaves + vs.length }
    match r with
    | some (k, a) =>
      let next ← afterKidP data count k
      countLoopP fuel { c with
        nodes := c.nodes + 1
        stack := if next < count then (c.raw, next) :: c.stack else c.stack
        raw := a
        nextChild := 0 }
    | none =>
      match c.stack with
      | [] => return c
      | (raw, k) :: stack => countLoopP fuel { c with raw := raw, nextChild := k, stack := stack }

/-- counter.go:46-119 `Count`. -/
def countP (fuel : Nat) (sp : Key) : Prog Counter := do
  let (raw, _) ← partialSearchP sp
  if raw = 0 then return { raw := raw }
  else if isLeaf raw then return { raw := raw, leaves := 1 }
  else countLoopP fuel { raw := raw, nodes := 1 }

/-- iterator.go:139-151: the child with the byte, from position `i` on, `n` left. -/
def findKidP (data : Slice) (char : UInt8) : Nat → Nat → Prog (Option (Nat × Word))
  | 0, _ => pure none
  | n + 1, i => do
    let a ← data.getP i
    if keyByte a = char then return some (i, a) else findKidP data char n (i + 1)

/-- iterator.go:94-157: the walk along `resumeAt`. -/
def seekLoopP (resumeAt : List UInt8) : Nat → Nat → Word → List ItPos → Prog (Word × Nat × List ItPos)
  | 0, _, _, _ => .ret (.error .fuel)
  | fuel + 1, k, raw, stack =>
    if k < resumeAt.length then do
      let count := nodeCount raw
      let data ← nodeDataP (nodeAddr raw)
      let (plen, _, data) ← skipPrefixP data (nodePlen raw)
      let k := k + plen
      if k ≥ resumeAt.length then return (raw, 0, stack)
      else
        let char ← Prog.ret (keyAt resumeAt k)
        if count ≥ fullAllocFrom then
          let a ← data.getP char.toNat
          if a ≠ 0 ∧ keyByte a = char then
            if isLeaf a then return (raw, char.toNat, stack)
            else
              let next ← nextKidP data (count - (char.toNat + 1)) (char.toNat + 1)
              seekLoopP resumeAt fuel (k + 1) a (⟨raw, next, next < count⟩ :: stack)
          else return (raw, 0, stack)
        else
          data.checkP count
          match ← findKidP data char count 0 with
          | some (l, a) =>
            if isLeaf a then return (raw, l, stack)
            else seekLoopP resumeAt fuel (k + 1) a (⟨raw, l + 1, l + 1 < count⟩ :: stack)
          | none => return (raw, 0, stack)
    else pure (raw, 0, stack)

/-- iterator.go:264-281. -/
def resumeLoopP : Bool → List ItPos → List UInt8 → Prog (List UInt8)
  | _, [], acc => pure acc
  | first, p :: ps, acc => do
    let data ← nodeDataP (nodeAddr p.raw)
    let acc := if first then acc else acc ++ [keyByte p.raw]
    let (acc, slots) ← appendPrefixP acc data (nodePlen p.raw)
    match ps with
    | [] =>
      let a ← data.getP (slots + p.k)
      return acc ++ [keyByte a]
    | _ => resumeLoopP false ps acc

/-- iterator.go:253-282 `storeResumePosition`. -/
def storeResumeP (stack : List ItPos) : Prog (List UInt8) := resumeLoopP true (trimStack stack).reverse []

/-- iterator.go:163-222: the scan. -/
def scanLoopP : Nat → Word → Nat → List ItPos → List Word → Prog (List Word × Option (List UInt8))
  | 0, _, _, _, _ => .ret (.error .fuel)
  | fuel + 1, raw, nextChild, stack, pf => do
    let count := nodeCount raw
    let data ← nodeDataP (nodeAddr raw)
    let (_, _, data) ← skipPrefixP data (nodePlen raw)
    let (vs, r) ← scanKidsP data (count - nextChild) nextChild
    let pf := pf ++ vs
    match r with
    | some (k, a) =>
      let next ← afterKidP data count k
      scanLoopP fuel a 0 (⟨raw, next, next < count⟩ :: stack) pf
    | none =>
      match stack with
      | [] => return (pf, none)
      | pos :: rest =>
        if pf.length > prefetchLength then
          let key ← storeResumeP stack
          return (pf, some key)
        else scanLoopP fuel pos.raw pos.k rest pf

/-- iterator.go:73-79: the subtree to scan. -/
def Iter.startP (sp : Key) : Prog (Word × Nat) := if sp.length > 0 then partialSearchP sp else .root fun r => pure (r, 0)

/-- iterator.go:51-233 `Next`. -/
def Iter.nextP (fuel : Nat) (it : Iter) : Prog (Bool × Iter) :=
  match it.prefetched[it.pp]? with
  | some v => pure (true, { it with value := v, pp := it.pp + 1 })
  | none =>
    if it.done then pure (false, it)
    else do
      let (raw, _) ← Iter.startP it.searchPrefix
      if raw = 0 then return (false, { it with done := true })
      else if isLeaf raw then return (true, { it with pp := 0, value := leafValue raw, done := true })
      else
        let (raw, nextChild, stack) ← seekLoopP it.resumeAt (it.resumeAt.length + 1) 0 raw []
        let (pf, res) ← scanLoopP fuel raw nextChild stack []
        let it := match res with
          | some key => { it with prefetched := pf, resumeAt := key }
          | none => { it with prefetched := pf, done := true }
        match pf with
        | v :: _ => return (true, { it with value := v, pp := 1 })
        | [] => return (false, it)

end Radix
