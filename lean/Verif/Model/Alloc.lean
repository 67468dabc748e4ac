import Verif.Model.State
/-!
# Allocators and epochs (`allocator.go`, `epoch.go`, `radix.go:212-242`)
-/
namespace Radix

/-- epoch.go:39-48 `minReservation`. -/
def St.minReservation (st : St) : Nat :=
  (List.range st.nalloc).foldl (fun m i => if st.resv i < m then st.resv i else m) maxUint64

/-- allocator.go:171-173 `startOp` of allocator `a`. -/
def St.startOp (st : St) (a : Nat) : St := { st with resv := upd st.resv a st.epoch }

/-- allocator.go:176-178 `endOp`. -/
def St.endOp (st : St) (a : Nat) : St := { st with resv := upd st.resv a maxUint64 }

/-- allocator.go:75-78 `FlushStats`. -/
def St.flushStats (st : St) (a : Nat) : St :=
  { st with
    live := st.live + (st.allocs a).itemCounter
    allocs := upd st.allocs a { st.allocs a with itemCounter := 0 } }

/-- radix.go:136-145 `Len`, on a stopped tree (`Stop`, `Start`: `Verif/Model/Pool.lean`). -/
def St.len (st : St) : Int :=
  (List.range st.nalloc).foldl (fun count a => count + (st.allocs a).itemCounter) st.live

/-- `a.itemCounter++` / `a.itemCounter--`. -/
def St.addItems (st : St) (a : Nat) (d : Int) : St :=
  { st with allocs := upd st.allocs a { st.allocs a with itemCounter := (st.allocs a).itemCounter + d } }

/-- allocator.go:180-193 `recycle`. -/
def St.recycle (st : St) (a : Nat) (node slots : Nat) : Res St :=
  if slots > recyclerLen then .ok st
  else if slots < recyclerLen then
    let al := st.allocs a
    let al := { al with
      recycler := upd al.recycler slots (al.recycler slots ++ [⟨node, st.epoch⟩])
      counter := al.counter + 1 }
    if al.counter ≥ 1000 then
      .ok ({ st with
        epoch := st.epoch + 1
        allocs := upd st.allocs a { al with counter := 0 } }.flushStats a)
    else .ok { st with allocs := upd st.allocs a al }
  else .error .index

/-- allocator.go:214-219: pick the first item older than `minReserved`; the last item takes its place. -/
def pickItem (minReserved : Nat) (l : List Item) : Option (Item × List Item) :=
  match l.findIdx? (fun it => it.e < minReserved) with
  | none => none
  | some i =>
    match l[i]?, l.getLast? with
    | some it, some last => some (it, (l.set i last).dropLast)
    | _, _ => none

/-- allocator.go:211,233-235: the sizes tried, in order: `slots`, then from `slots+2` on. -/
def sizesToTry (slots : Nat) : List Nat :=
  if slots < recyclerLen then slots :: List.range' (slots + 2) (recyclerLen - (slots + 2)) else []

/-- allocator.go:241-258 `allocateNode`: bump allocation, receiving a new block when the current one is full.
If the block goroutine has not prepared a block yet the receive waits for its step. -/
def St.allocFresh (st : St) (a : Nat) (slots : Nat) : Res (Nat × St) :=
  let al := st.allocs a
  if al.nextFree + slots * 8 ≥ blockSize then do
    let st ← st.blockStep
    let block := st.baNext
    let offset := if block * blockSize = 0 then 8 else block * blockSize
    return (offset / 8,
      { st with
        baNext := st.baNext + 1
        baReady := false
        baSent := true
        allocs := upd st.allocs a { al with nextFree := slots * 8, block := block, offset := offset } })
  else
    .ok ((al.offset + al.nextFree) / 8,
      { st with allocs := upd st.allocs a { al with nextFree := al.nextFree + slots * 8 } })

/-- allocator.go:209-238 `newNode`. -/
def St.newNode (st : St) (a : Nat) (slots : Nat) : Res (Nat × St) :=
  let al := st.allocs a
  match (sizesToTry slots).findSome? (fun t => (pickItem st.minReservation (al.recycler t)).map (Prod.mk t)) with
  | some (t, it, rest) =>
    let rec1 := upd al.recycler t rest
    let rec2 := if t - slots ≥ 2 then upd rec1 (t - slots) (rec1 (t - slots) ++ [⟨it.n + slots, it.e⟩]) else rec1
    .ok (it.n, { st with allocs := upd st.allocs a { al with recycler := rec2 } })
  | none => st.allocFresh a slots

/-- radix.go:212-223 `allocateNode`: new node and its data. -/
def St.allocNode (st : St) (a : Nat) (count prefixLen : Nat) : Res (Nat × Slice × St) := do
  let (n, st) ← st.newNode a (count + prefixSlots prefixLen)
  let data ← st.nodeData n
  return (n, data, st)

/-- radix.go:226-242 `allocateNodeWithPrefix`: new node with the prefix stored, data after the prefix. -/
def St.allocNodeP (st : St) (a : Nat) (count : Nat) (pfx : List UInt8) : Res (Nat × Slice × St) := do
  let (n, st) ← st.newNode a (count + prefixSlots pfx.length)
  let data ← st.nodeData n
  if pfx.length > 0 then
    let m ← storePrefix st.mem data pfx
    let data ← data.drop (prefixSlots pfx.length)
    return (n, data, { st with mem := m })
  else
    return (n, data, st)

end Radix
