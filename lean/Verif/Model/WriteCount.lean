import Verif.Model.Serial
/-!
# The calls of `Write` in `writeState`, and the number of bytes returned (`state.go:19-102`, `allocator.go:319-372`)

`Verif/Model/Serial.lean` has the data written if no `Write` fails; here the calls of `Write` are modelled one by one, with their results.
The goroutines are modelled in `Verif/Model/Pipeline.lean` (with failing writes they may hang, C32); here it is assumed that they end.
-/
set_option autoImplicit false
namespace Radix

/-- An `io.Writer`.  `fails i = none`: call number `i` of `Write` writes everything; `some n`: it writes `n` bytes (at most what it was given) and
returns an error.  `got`: what has been written. -/
structure Out where
  fails : Nat → Option Nat
  calls : Nat := 0
  got : Bytes := []

/-- `n, err := out.Write(p)`: `n`, whether there is an error, and the writer afterwards. -/
def Out.write (o : Out) (p : Bytes) : Nat × Bool × Out :=
  match o.fails o.calls with
  | none => (p.length, false, { o with calls := o.calls + 1, got := o.got ++ p })
  | some n => ((p.take n).length, true, { o with calls := o.calls + 1, got := o.got ++ p.take n })

/-- allocator.go:322: the first write of `Allocator.writeState`. -/
def allocHead (empty : Bool) (al : Alloc) : Bytes :=
  txt ['e', 'm', 'p', 't', 'y', ' '] ++ (if empty then txt ['t', 'r', 'u', 'e'] else txt ['f', 'a', 'l', 's', 'e']) ++ [nl] ++
  (txt ['n', 'e', 'x', 't', '_', 'f', 'r', 'e', 'e', ' '] ++ dec al.nextFree ++ [nl]) ++
  (txt ['b', 'l', 'o', 'c', 'k', ' '] ++ dec al.block ++ [nl]) ++
  (txt ['b', 'l', 'o', 'c', 'k', '_', 's', 'i', 'z', 'e', ' '] ++ dec blockSize ++ [nl]) ++
  (txt ['o', 'f', 'f', 's', 'e', 't', ' '] ++ dec al.offset ++ [nl])

/-- allocator.go:338: the line before a free list. -/
def recyclerHead (i : Nat) (l : List Item) : Bytes :=
  txt ['r', 'e', 'c', 'y', 'c', 'l', 'e', 'r', ' '] ++ dec i ++ [sp] ++ dec l.length ++ [nl]

/-- allocator.go:331-362: the loop over the free lists; `w`: the variable `written`.  On an error `n` is returned. -/
def writeLists (al : Alloc) : List Nat → Nat → Out → Nat × Bool × Out
  | [], w, o => (w, false, o)
  | i :: l, w, o =>
    if (al.recycler i).length = 0 then writeLists al l w o
    else
      let r := o.write (recyclerHead i (al.recycler i))
      if r.2.1 then (r.1, true, r.2.2)
      else
        let r2 := r.2.2.write ((al.recycler i).flatMap fun it => le64 it.n)
        if r2.2.1 then (r2.1, true, r2.2.2) else writeLists al l (w + r.1 + r2.1) r2.2.2

/-- allocator.go:319-372 `Allocator.writeState`. -/
def writeAlloc (empty : Bool) (al : Alloc) (o : Out) : Nat × Bool × Out :=
  let r := o.write (allocHead empty al)
  if r.2.1 then (r.1, true, r.2.2)
  else
    let r2 := writeLists al (List.range recyclerLen) r.1 r.2.2
    if r2.2.1 then r2
    else
      let r3 := r2.2.2.write [nl]
      if r3.2.1 then (r3.1, true, r3.2.2) else (r2.1 + r3.1, false, r3.2.2)

/-- state.go:31: "allocator i". -/
def allocatorHead (i : Nat) : Bytes := txt ['a', 'l', 'l', 'o', 'c', 'a', 't', 'o', 'r', ' '] ++ dec i ++ [nl]

/-- state.go:30-41: the loop over the allocators. -/
def writeAllocs (st : St) (empty : Nat → Bool) : List Nat → Nat → Out → Nat × Bool × Out
  | [], w, o => (w, false, o)
  | i :: l, w, o =>
    let r := o.write (allocatorHead i)
    if r.2.1 then (r.1 + w, true, r.2.2)
    else
      let r2 := writeAlloc (empty i) (st.allocs i) r.2.2
      if r2.2.1 then (r2.1 + (w + r.1), true, r2.2.2) else writeAllocs st empty l (w + r.1 + r2.1) r2.2.2

/-- state.go:72: the lines before a block. -/
def blockHead (enc : Bytes → Bytes) (mem : Mem) (b : Nat) : Bytes :=
  (txt ['b', 'l', 'o', 'c', 'k', ' '] ++ dec b ++ [nl]) ++
  (txt ['c', 'o', 'm', 'p', 'r', 'e', 's', 's', 'i', 'o', 'n', ' ', 's', 'n', 'a', 'p', 'p', 'y'] ++ [nl]) ++
  (txt ['s', 'i', 'z', 'e', ' '] ++ dec (enc (blockBytes mem b)).length ++ [nl])

/-- state.go:68-89: the goroutine that writes the blocks, in the order `l`.  On an error what this call has written is not counted. -/
def writeBlocks (enc : Bytes → Bytes) (mem : Mem) : List Nat → Nat → Out → Nat × Bool × Out
  | [], w, o => (w, false, o)
  | b :: l, w, o =>
    let r := o.write (blockHead enc mem b)
    if r.2.1 then (w, true, r.2.2)
    else
      let r2 := r.2.2.write (enc (blockBytes mem b))
      if r2.2.1 then (w + r.1, true, r2.2.2) else writeBlocks enc mem l (w + r.1 + r2.1) r2.2.2

/-- state.go:19-102 `writeState` (radix.go:178 `WriteState`): the number and the error returned.  `mem`: the blocks when they are compressed,
`order`: the order in which they are written. -/
def writeState (enc : Bytes → Bytes) (empty : Nat → Bool) (st : St) (mem : Mem) (order : List Nat) (o : Out) : Nat × Bool × Out :=
  let r := o.write (headerBytes st st.nextFreeBlock)
  if r.2.1 then (0, true, r.2.2)
  else
    let r2 := writeAllocs st empty (List.range st.nalloc) r.1 r.2.2
    if r2.2.1 then r2 else writeBlocks enc mem order r2.1 r2.2.2

end Radix
