import Verif.Word
/-!
# Memory, panics and the tree state (`radix.go`, `epoch.go`)

Constants are those of the default build (`blocksize.go`: 2 MiB blocks).
-/
namespace Radix

/-- The ways a call can fail at run time. -/
inductive Panic
  | index            -- index or slice bounds out of range
  | nilBlock         -- nil `*nodeBlock` dereferenced, or radix.go:288 "Invalid node and block"
  | prefixViolation  -- update.go:295
  | unlock           -- locks.go:93,100,108,151,159,179 "Unlock of unlocked ..."
  | noBlocks         -- radix.go:185 with `next = maxBlockCount`
  | fuel             -- model only: the loop did not end within the given number of rounds
  deriving DecidableEq, Repr

abbrev Res := Except Panic

deriving instance DecidableEq for Except

/-- radix.go:38 `1 << blockSlotsShift` (blocksize.go:8): slots per block. -/
def blockSlots : Nat := 262144
/-- radix.go:36 `blockSize` in bytes. -/
def blockSize : Nat := 2097152
/-- radix.go:43 `locksPerBlock`. -/
def locksPerBlock : Nat := 4096
/-- radix.go:45 `fullAllocFrom`: nodes with at least this count use the 256-slot layout. -/
def fullAllocFrom : Nat := 128
/-- radix.go:46 `fullAllocAfter`. -/
def fullAllocAfter : Nat := 127
/-- blocksize.go:10 `maxBlockCount`. -/
def maxBlockCount : Nat := 65536
/-- epoch.go:6 `maxUint64`. -/
def maxUint64 : Nat := 18446744073709551615
/-- allocator.go:69 `make([][]recycledItem, 258)`. -/
def recyclerLen : Nat := 258

/-- Slot contents by global slot number `block * blockSlots + offset` (radix.go:70 `blocks[..].data`). -/
abbrev Mem := Nat → Word

/-- A memory location holding a child reference: the root word, or a slot (`*uint64` in the code). -/
inductive Ptr
  | root
  | slot (a : Nat)
  deriving DecidableEq, Repr

/-- allocator.go:51-54 `recycledItem`. -/
structure Item where
  n : Nat
  e : Nat
  deriving DecidableEq, Repr

/-- allocator.go:27-49 `Allocator` (the fields that influence behaviour; `nextFree`, `offset` in bytes). -/
structure Alloc where
  nextFree : Nat := blockSize
  block : Nat := 0
  offset : Nat := 0
  recycler : Nat → List Item := fun _ => []
  counter : Nat := 0
  itemCounter : Int := 0

/-- radix.go:68-90 `Tree`, epoch.go:9-14 `epochManager` and the block goroutine (radix.go:182-196).
`baNext`/`baReady`: the goroutine's local variable `next` and whether it has created `blocks[next]`, published
`nextFreeBlock` and waits to send; `baSent`: whether it has sent a block (so that `nextFreeBlock` is behind until it is published).  The `slots` pool and `stopped` are modelled separately (`Verif/Pool.lean`);
`blockMap` is only bookkeeping and is not modelled. -/
structure St where
  mem : Mem
  baNext : Nat
  baReady : Bool
  baSent : Bool
  root : Word
  rootLock : Int
  locks : Nat → Nat → Int
  epoch : Nat
  resv : Nat → Nat
  nalloc : Nat
  allocs : Nat → Alloc
  live : Int

/-- radix.go:99-119 `NewTree` with `n` allocators, before the block goroutine has run. -/
def St.new (n : Nat) : St where
  mem := fun _ => 0
  baNext := 0
  baReady := false
  baSent := false
  root := 0
  rootLock := 0
  locks := fun _ _ => 0
  epoch := 0
  resv := fun _ => maxUint64
  nalloc := n
  allocs := fun _ => {}
  live := 0

/-- Number of non-nil entries of `idx.blocks` (they are filled in order). -/
def St.nblocks (st : St) : Nat := if st.baReady then st.baNext + 1 else st.baNext

/-- radix.go:71 `nextFreeBlock`: as last published by the goroutine, or as loaded. -/
def St.nextFreeBlock (st : St) : Nat := if st.baReady || !st.baSent then st.baNext else st.baNext - 1

/-- radix.go:185-188: the block goroutine creates the next (zeroed) block and publishes its number. -/
def St.blockStep (st : St) : Res St :=
  if st.baReady then .ok st
  else if st.baNext < maxBlockCount then
    .ok { st with
      mem := fun a => if a / blockSlots = st.baNext then 0 else st.mem a
      baReady := true }
  else .error .noBlocks

/-- Function update. -/
def upd {α β : Type} [DecidableEq α] (f : α → β) (a : α) (b : β) : α → β := fun x => if x = a then b else f x

@[simp] theorem upd_same {α β : Type} [DecidableEq α] (f : α → β) (a : α) (b : β) : upd f a b a = b := by
  simp [upd]

theorem upd_of_ne {α β : Type} [DecidableEq α] (f : α → β) {a x : α} (b : β) (h : x ≠ a) : upd f a b x = f x := by
  simp [upd, h]

/-- `atomic.LoadUint64(p)`. -/
def St.load (st : St) : Ptr → Word
  | .root => st.root
  | .slot a => st.mem a

/-- `atomic.StoreUint64(p, w)`. -/
def St.store (st : St) (p : Ptr) (w : Word) : St :=
  match p with
  | .root => { st with root := w }
  | .slot a => { st with mem := upd st.mem a w }

/-- `atomic.CompareAndSwapUint64(p, old, new)`. -/
def St.cas (st : St) (p : Ptr) (old new : Word) : Bool × St :=
  if st.load p = old then (true, st.store p new) else (false, st)

/-! ## Slices of block data -/

/-- A Go slice into a block: first slot and number of slots up to the end of the block (length = capacity). -/
structure Slice where
  base : Nat
  len : Nat
  deriving DecidableEq, Repr

/-- radix.go:284-291 `getNodeData` (and the inlined copies at radix.go:297-299, 409-411, 461-463, 520-522,
update.go:159-161, delete.go:122-124, 237-239): `idx.blocks[block].data[offset:]`. -/
def St.nodeData (st : St) (node : Nat) : Res Slice :=
  if node / blockSlots < st.nblocks then .ok ⟨node, blockSlots - node % blockSlots⟩ else .error .nilBlock

/-- `s[n:]`. -/
def Slice.drop (s : Slice) (n : Nat) : Res Slice :=
  if n ≤ s.len then .ok ⟨s.base + n, s.len - n⟩ else .error .index

/-- `s[i]`. -/
def Slice.get (m : Mem) (s : Slice) (i : Nat) : Res Word :=
  if i < s.len then .ok (m (s.base + i)) else .error .index

/-- Contents of `n` consecutive slots. -/
def readWords (m : Mem) (base n : Nat) : List Word := (List.range n).map fun i => m (base + i)

/-- The words of `s[:n]`. -/
def Slice.words (m : Mem) (s : Slice) (n : Nat) : Res (List Word) :=
  if n ≤ s.len then .ok (readWords m s.base n) else .error .index

/-- Writing consecutive slots. -/
def writeWords (m : Mem) (base : Nat) : List Word → Mem
  | [] => m
  | w :: ws => writeWords (upd m base w) (base + 1) ws

/-- `s[i] = w`. -/
def Slice.set (m : Mem) (s : Slice) (i : Nat) (w : Word) : Res Mem :=
  if i < s.len then .ok (upd m (s.base + i) w) else .error .index

/-- Go `copy(s, ws)`: copies as much as fits. -/
def Slice.copy (m : Mem) (s : Slice) (ws : List Word) : Mem := writeWords m s.base (ws.take s.len)

/-! ## Prefix bytes (`unsafe.go`), little endian -/

/-- Byte `t` (0..7) of the little-endian representation of a word. -/
def byteOf (w : Word) (t : Nat) : UInt8 := UInt8.ofNat (w.toNat / 256 ^ t)

/-- The word with given little-endian bytes. -/
def assemble (f : Nat → UInt8) : Word :=
  UInt64.ofNat ((f 0).toNat + (f 1).toNat * 256 + (f 2).toNat * 256^2 + (f 3).toNat * 256^3 +
    (f 4).toNat * 256^4 + (f 5).toNat * 256^5 + (f 6).toNat * 256^6 + (f 7).toNat * 256^7)

/-- Byte `i` of the memory starting at slot `base`. -/
def byteAt (m : Mem) (base i : Nat) : UInt8 := byteOf (m (base + i / 8)) (i % 8)

/-- `n` bytes starting at slot `base` (source of a `memmove`). -/
def readBytes (m : Mem) (base n : Nat) : List UInt8 := (List.range n).map (byteAt m base)

/-- `memmove` of bytes to slot `base` (unsafe.go:26): other bytes of the last slot keep their old value. -/
def writeBytes (m : Mem) (base : Nat) (bs : List UInt8) : Mem := fun a =>
  if base ≤ a ∧ a < base + (bs.length + 7) / 8 then
    assemble fun t => bs.getD (8 * (a - base) + t) (byteOf (m a) t)
  else m a

/-- radix.go:213-216, 228-231: slots reserved for a prefix. -/
def prefixSlots (prefixLen : Nat) : Nat := (prefixLen + 7) / 8 + (if prefixLen ≥ 255 then 1 else 0)

/-- unsafe.go:21-27 `storePrefix` (only called with a nonempty prefix, radix.go:237). The `memmove` itself is not
bounds-checked in Go; only `&dst[0]` is. -/
def storePrefix (m : Mem) (dst : Slice) (pfx : List UInt8) : Res Mem := do
  if pfx.length ≥ 255 then
    let m ← dst.set m 0 (UInt64.ofNat pfx.length)
    let dst ← dst.drop 1
    let _ ← dst.get m 0
    return writeBytes m dst.base pfx
  else
    let _ ← dst.get m 0
    return writeBytes m dst.base pfx

/-- unsafe.go:30-56 `appendPrefix`: the bytes appended to `dst`, and the number of slots used. -/
def appendPrefix (m : Mem) (dst : List UInt8) (src : Slice) (length : Nat) : Res (List UInt8 × Nat) :=
  if length = 0 then .ok (dst, 0)
  else if length = 255 then do
    let w ← src.get m 0
    let length := w.toNat
    let src ← src.drop 1
    let _ ← src.get m 0
    return (dst ++ readBytes m src.base length, (length + 15) / 8)
  else do
    let _ ← src.get m 0
    return (dst ++ readBytes m src.base length, (length + 7) / 8)

/-- The recurring "skip the prefix" code (radix.go:301-310, 523-534, 412-421, 464-473, delete.go:128-142,
iterator.go:100-113, 168-175, counter.go:69-80): real prefix length, its slots, and the data after it. -/
def skipPrefix (m : Mem) (data : Slice) (plen : Nat) : Res (Nat × Nat × Slice) :=
  if plen > 0 then
    if plen = 255 then do
      let w ← data.get m 0
      let data ← data.drop ((w.toNat + 15) / 8)
      return (w.toNat, (w.toNat + 15) / 8, data)
    else do
      let data ← data.drop ((plen + 7) / 8)
      return (plen, (plen + 7) / 8, data)
  else .ok (0, 0, data)

/-- `key[i]`. -/
def keyAt (key : Key) (i : Nat) : Res UInt8 :=
  match key[i]? with
  | some k => .ok k
  | none => .error .index

/-- The scan of a variable sized node (radix.go:551-561, update.go:221-235, delete.go:168-181): children are
loaded in order until one has a byte `≥ k`.  Result: its position (or the number of children) and the last
word loaded. -/
def scan (k : UInt8) : List Word → Nat × Word
  | [] => (0, 0)
  | [w] => if keyByte w ≥ k then (0, w) else (1, w)
  | w :: w' :: ws => if keyByte w ≥ k then (0, w) else
      let r := scan k (w' :: ws)
      (r.1 + 1, r.2)

end Radix
