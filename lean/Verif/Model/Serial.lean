import Verif.Model.State
/-!
# Saving and loading (`state.go`, `allocator.go:260-372`)

The data written and read are lists of bytes.  Compression (the snappy package) is not modelled: `enc` and `dec` are parameters.
The block goroutines of `writeState` (state.go:43-99) determine the order in which the blocks appear; the order is a parameter
here and the goroutines are modelled in `Verif/Model/Pipeline.lean`.

Not modelled: `blockMap` (state.go:114, 164, 198-200; nothing else reads it), `Allocator.empty` and `Allocator.blockSize`
(allocator.go:284, 290; only printed), the reuse of buffers.  The word `empty` is written from a parameter and read as the code
reads it, that is, ignored.
-/
set_option autoImplicit false
namespace Radix

abbrev Bytes := List UInt8

def nl : UInt8 := 10
def sp : UInt8 := 32

/-- The bytes of a text. -/
def txt (cs : List Char) : Bytes := cs.map fun c => c.toNat.toUInt8

/-! ## Numbers -/

/-- Decimal digits of `n`, at most `fuel` of them. -/
def decDigits : Nat → Nat → Bytes
  | 0, _ => []
  | fuel + 1, n => if n < 10 then [(48 + n).toUInt8] else decDigits fuel (n / 10) ++ [(48 + n % 10).toUInt8]

/-- `fmt.Sprintf("%d", n)`. -/
def dec (n : Nat) : Bytes := decDigits (n + 1) n

/-- `fmt.Sprintf("%d", n)` of a signed number. -/
def decInt : Int → Bytes
  | .ofNat n => dec n
  | .negSucc n => 45 :: dec (n + 1)

def isDigit (c : UInt8) : Bool := 48 ≤ c && c ≤ 57

/-- The loop of `strconv.ParseUint(s, 10, 64)`: 0 on a syntax error, the largest value on overflow; the first one met counts. -/
def parseDigits : Nat → Bytes → Nat
  | n, [] => n
  | n, c :: cs =>
    if isDigit c then
      if n ≥ maxUint64 / 10 + 1 then maxUint64
      else
        let n1 := n * 10 + (c.toNat - 48)
        if n1 > maxUint64 then maxUint64 else parseDigits n1 cs
    else 0

/-- `v, _ := strconv.ParseUint(s, 10, 64)` (state.go:126, allocator.go:280). -/
def parseUint (s : Bytes) : Nat := parseDigits 0 s

/-- `v, _ := strconv.Atoi(s)` (allocator.go:299-300). -/
def parseInt (s : Bytes) : Int :=
  match s with
  | [] => 0
  | c :: cs =>
    let neg := c == 45
    let un := if c == 43 || c == 45 then parseUint cs else parseUint s
    if neg then (if un > 9223372036854775808 then -9223372036854775808 else -(un : Int))
    else if un ≥ 9223372036854775808 then 9223372036854775807 else un

/-- Conversion of a `uint64` to `int` or `int64`. -/
def toSigned (v : Nat) : Int := if v < 9223372036854775808 then v else (v : Int) - 18446744073709551616

/-- `binary.LittleEndian.PutUint64`, and the bytes of a word in memory (unsafe.go `byteSliceFromUint64`, on a little-endian machine). -/
def le64 (n : Nat) : Bytes := (List.range 8).map fun i => (n / 256 ^ i % 256).toUInt8

/-- `binary.LittleEndian.Uint64`. -/
def ofLe : Bytes → Nat
  | [] => 0
  | b :: bs => b.toNat + 256 * ofLe bs

/-! ## Writing -/

/-- allocator.go:331-357: one free list. -/
def recyclerBytes (i : Nat) (l : List Item) : Bytes :=
  if l.length = 0 then []
  else txt ['r', 'e', 'c', 'y', 'c', 'l', 'e', 'r', ' '] ++ dec i ++ [sp] ++ dec l.length ++ [nl] ++ l.flatMap fun it => le64 it.n

/-- allocator.go:319-372 `Allocator.writeState`. -/
def allocBytes (empty : Bool) (al : Alloc) : Bytes :=
  txt ['e', 'm', 'p', 't', 'y', ' '] ++ (if empty then txt ['t', 'r', 'u', 'e'] else txt ['f', 'a', 'l', 's', 'e']) ++ [nl] ++
  (txt ['n', 'e', 'x', 't', '_', 'f', 'r', 'e', 'e', ' '] ++ dec al.nextFree ++ [nl]) ++
  (txt ['b', 'l', 'o', 'c', 'k', ' '] ++ dec al.block ++ [nl]) ++
  (txt ['b', 'l', 'o', 'c', 'k', '_', 's', 'i', 'z', 'e', ' '] ++ dec blockSize ++ [nl]) ++
  (txt ['o', 'f', 'f', 's', 'e', 't', ' '] ++ dec al.offset ++ [nl]) ++
  ((List.range recyclerLen).flatMap fun i => recyclerBytes i (al.recycler i)) ++ [nl]

/-- state.go:31: "allocator i". -/
def allocatorBytes (st : St) (empty : Nat → Bool) (i : Nat) : Bytes :=
  txt ['a', 'l', 'l', 'o', 'c', 'a', 't', 'o', 'r', ' '] ++ dec i ++ [nl] ++ allocBytes (empty i) (st.allocs i)

/-- The data of block `b`. -/
def blockBytes (mem : Mem) (b : Nat) : Bytes := (List.range blockSlots).flatMap fun i => le64 (mem (b * blockSlots + i)).toNat

/-- state.go:72, 79: one block. -/
def blockJob (enc : Bytes → Bytes) (mem : Mem) (b : Nat) : Bytes :=
  let buf := enc (blockBytes mem b)
  (txt ['b', 'l', 'o', 'c', 'k', ' '] ++ dec b ++ [nl]) ++
  (txt ['c', 'o', 'm', 'p', 'r', 'e', 's', 's', 'i', 'o', 'n', ' ', 's', 'n', 'a', 'p', 'p', 'y'] ++ [nl]) ++
  (txt ['s', 'i', 'z', 'e', ' '] ++ dec buf.length ++ [nl]) ++ buf

/-- state.go:23: the header.  `next`: `nextFreeBlock` as read here. -/
def headerBytes (st : St) (next : Nat) : Bytes :=
  (txt ['o', 'b', 'j', 'e', 'c', 't', 's', ' '] ++ decInt st.live ++ [nl]) ++
  (txt ['b', 'l', 'o', 'c', 'k', 's', 'i', 'z', 'e', ' '] ++ dec blockSize ++ [nl]) ++
  (txt ['a', 'l', 'l', 'o', 'c', 'a', 't', 'e', 'd', '_', 'b', 'l', 'o', 'c', 'k', 's', ' '] ++ dec next ++ [nl]) ++
  (txt ['a', 'l', 'l', 'o', 'c', 'a', 't', 'o', 'r', 's', ' '] ++ dec st.nalloc ++ [nl]) ++
  (txt ['r', 'o', 'o', 't', '_', 'n', 'o', 'd', 'e', ' '] ++ dec st.root.toNat ++ [nl]) ++
  (txt ['e', 'p', 'o', 'c', 'h', ' '] ++ dec st.epoch ++ [nl])

/-- state.go:19-102 `writeState`: the bytes written if no write fails.  `next`: the value of `nextFreeBlock` when the header is
written; `order`: the blocks in the order in which they are written. -/
def stateBytes (enc : Bytes → Bytes) (empty : Nat → Bool) (st : St) (next : Nat) (order : List Nat) : Bytes :=
  headerBytes st next ++ (List.range st.nalloc).flatMap (allocatorBytes st empty) ++ order.flatMap (blockJob enc st.mem)

/-! ## Reading -/

/-- How loading can fail: an error is returned, or the code panics. -/
inductive LoadErr
  | err
  | panic
  deriving DecidableEq, Repr

/-- `reader.ReadBytes('\n')`: the line without the newline, and the rest; `none` at the end of the data. -/
def readLine : Bytes → Option (Bytes × Bytes)
  | [] => none
  | c :: cs => if c = nl then some ([], cs) else (readLine cs).map fun p => (c :: p.1, p.2)

/-- The text before the first space and the text after it (`bytes.IndexByte(line, ' ')`). -/
def splitSpace : Bytes → Option (Bytes × Bytes)
  | [] => none
  | c :: cs => if c = sp then some ([], cs) else (splitSpace cs).map fun p => (c :: p.1, p.2)

/-- `io.ReadFull` of `n` bytes. -/
def readFull (n : Nat) (input : Bytes) : Option (Bytes × Bytes) :=
  if n ≤ input.length then some (input.take n, input.drop n) else none

/-- The largest size `make` accepts (in bytes, on amd64); below it memory is assumed to be available. -/
def maxAlloc : Nat := 281474976710656

/-- allocator.go:306-313: `count` free list entries. -/
def readItems : Nat → Bytes → Option (List Item × Bytes)
  | 0, input => some ([], input)
  | count + 1, input =>
    match readFull 8 input with
    | none => none
    | some (buf, input) => (readItems count input).map fun p => (⟨ofLe buf, 0⟩ :: p.1, p.2)

/-- allocator.go:293-313: "recycler size count". -/
def loadRecycler (al : Alloc) (values input : Bytes) : Except LoadErr (Alloc × Bytes) :=
  match splitSpace values with
  | none => .error .err
  | some (w1, w2) =>
    let size := parseInt w1
    let count := parseInt w2
    if size < 0 ∨ size ≥ recyclerLen ∨ count < 0 ∨ count * 16 > maxAlloc then .error .panic
    else
      match readItems count.toNat input with
      | none => .error .err
      | some (l, input) => .ok ({ al with recycler := upd al.recycler size.toNat l }, input)

/-- allocator.go:260-317 `Allocator.loadState`, from the loop on; `fuel`: bound on the number of lines. -/
def loadAlloc : Nat → Alloc → Bytes → Except LoadErr (Alloc × Bytes)
  | 0, _, _ => .error .err
  | fuel + 1, al, input =>
    match readLine input with
    | none => .error .err
    | some (line, input) =>
      if line = [] then .ok (al, input)
      else
        match splitSpace line with
        | none => .error .err
        | some (key, values) =>
          let v := parseUint values
          if key = txt ['n', 'e', 'x', 't', '_', 'f', 'r', 'e', 'e'] then loadAlloc fuel { al with nextFree := v } input
          else if key = txt ['b', 'l', 'o', 'c', 'k'] then loadAlloc fuel { al with block := v } input
          else if key = txt ['o', 'f', 'f', 's', 'e', 't'] then loadAlloc fuel { al with offset := v } input
          else if key = txt ['r', 'e', 'c', 'y', 'c', 'l', 'e', 'r'] then
            match loadRecycler al values input with
            | .error e => .error e
            | .ok (al, input) => loadAlloc fuel al input
          else loadAlloc fuel al input

/-- The tree under construction.  `epoch = none`: there is no epoch manager yet.  `blocks b = none`: `idx.blocks[b]` is nil. -/
structure Loaded where
  live : Int := 0
  next : Nat := 0
  epoch : Option Nat := none
  root : Nat := 0
  nalloc : Nat := 0
  allocs : Nat → Alloc := fun _ => {}
  blocks : Nat → Option Bytes := fun _ => none

/-- state.go:189-196: the data of a block after decompressing into a zeroed block.  If the decompressed data is longer than the
block, `snappy.Decode` allocates another buffer and the block stays empty. -/
def blockData (d : Bytes) : Bytes :=
  if d.length ≤ blockSize then d ++ List.replicate (blockSize - d.length) 0 else List.replicate blockSize 0

/-- state.go:126-201: one line and the data belonging to it; `cur`: the variable `nextBlock`. -/
def loadLine (dec : Bytes → Option Bytes) (L : Loaded) (cur : Int) (key values input : Bytes) : Except LoadErr (Loaded × Int × Bytes) :=
  let v := parseUint values
  if key = txt ['o', 'b', 'j', 'e', 'c', 't', 's'] then .ok ({ L with live := toSigned v }, cur, input)
  else if key = txt ['b', 'l', 'o', 'c', 'k', 's', 'i', 'z', 'e'] then
    if v ≠ blockSize then .error .err else .ok (L, cur, input)
  else if key = txt ['a', 'l', 'l', 'o', 'c', 'a', 't', 'e', 'd', '_', 'b', 'l', 'o', 'c', 'k', 's'] then
    .ok ({ L with next := v }, cur, input)
  else if key = txt ['e', 'p', 'o', 'c', 'h'] then
    if L.epoch = none then .error .panic else .ok ({ L with epoch := some v }, cur, input)
  else if key = txt ['r', 'o', 'o', 't', '_', 'n', 'o', 'd', 'e'] then .ok ({ L with root := v }, cur, input)
  else if key = txt ['a', 'l', 'l', 'o', 'c', 'a', 't', 'o', 'r', 's'] then
    if v * 8 > maxAlloc then .error .panic
    else .ok ({ L with nalloc := v, epoch := some 0, allocs := fun _ => {} }, cur, input)
  else if key = txt ['a', 'l', 'l', 'o', 'c', 'a', 't', 'o', 'r'] then
    if toSigned v > (L.nalloc : Int) - 1 then .error .err
    else if v ≥ L.nalloc then .error .panic
    else
      match loadAlloc (input.length + 1) { L.allocs v with recycler := fun _ => [] } input with
      | .error e => .error e
      | .ok (al, input) => .ok ({ L with allocs := upd L.allocs v al }, cur, input)
  else if key = txt ['b', 'l', 'o', 'c', 'k'] then
    if toSigned v > (maxBlockCount : Int) - 1 then .error .err else .ok (L, toSigned v, input)
  else if key = txt ['s', 'i', 'z', 'e'] then
    if cur < 0 then .error .err
    else if toSigned v < 0 ∨ v > maxAlloc then .error .panic
    else
      match readFull v input with
      | none => .error .err
      | some (buf, input) =>
        match dec buf with
        | none => .error .err
        | some d => .ok ({ L with blocks := upd L.blocks cur.toNat (some (blockData d)) }, cur, input)
  else .ok (L, cur, input)

/-- state.go:115-202: the loop over the lines; `fuel`: bound on their number. -/
def loadLoop (dec : Bytes → Option Bytes) : Nat → Loaded → Int → Bytes → Except LoadErr Loaded
  | 0, _, _, _ => .error .err
  | fuel + 1, L, cur, input =>
    match readLine input with
    | none => .ok L
    | some (line, input) =>
      match splitSpace line with
      | none => .error .panic
      | some (key, values) =>
        match loadLine dec L cur key values input with
        | .error e => .error e
        | .ok (L, cur, input) => loadLoop dec fuel L cur input

/-- state.go:106-204 `loadState`. -/
def loadState (dec : Bytes → Option Bytes) (input : Bytes) : Except LoadErr Loaded := loadLoop dec (input.length + 1) {} (-1) input

/-- The words of a block. -/
def blockWord (d : Bytes) (i : Nat) : Word := UInt64.ofNat (ofLe ((d.drop (8 * i)).take 8))

/-- The memory of the loaded tree. -/
def Loaded.mem (L : Loaded) : Mem := fun a =>
  match L.blocks (a / blockSlots) with
  | some d => blockWord d (a % blockSlots)
  | none => 0

/-- radix.go:122-133 `NewTreeFromState`: the tree before the block goroutine has run; `none` if a block below `nextFreeBlock` is
missing or there is no epoch manager (later operations would panic). -/
def Loaded.start (L : Loaded) : Option St :=
  match L.epoch with
  | none => none
  | some e =>
    if (List.range L.next).all fun b => (L.blocks b).isSome then
      some {
        mem := L.mem
        baNext := L.next
        baReady := false
        baSent := false
        root := UInt64.ofNat L.root
        rootLock := 0
        locks := fun _ _ => 0
        epoch := e
        resv := fun _ => maxUint64
        nalloc := L.nalloc
        allocs := L.allocs
        live := L.live }
    else none

/-! ## What loading should give -/

/-- An allocator after saving and loading: its position and its free lists (usable at once), counters zero. -/
def Alloc.restore (al : Alloc) : Alloc where
  nextFree := al.nextFree
  block := al.block
  offset := al.offset
  recycler := fun i => if i < recyclerLen then (al.recycler i).map fun it => ⟨it.n, 0⟩ else []

/-- The state after saving and loading.  A negative counter is written with its sign and read as 0. -/
def St.restore (st : St) : St where
  mem := fun a => if a / blockSlots < st.nextFreeBlock then st.mem a else 0
  baNext := st.nextFreeBlock
  baReady := false
  baSent := false
  root := st.root
  rootLock := 0
  locks := fun _ _ => 0
  epoch := st.epoch
  resv := fun _ => maxUint64
  nalloc := st.nalloc
  allocs := fun a => if a < st.nalloc then (st.allocs a).restore else {}
  live := if st.live < 0 then 0 else st.live

end Radix
