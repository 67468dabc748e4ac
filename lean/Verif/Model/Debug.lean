import Verif.Model.State
/-!
# The debug commands `root` and `node <id>` of `Admin`, and `Stats`

The output is modelled as data: which words are printed, in which order.  Not modelled: the layout of the text, and the fields which are
printed besides a word and are computed from it (`explodeNode`, `getLeafValue`, `printableChar`).  The arithmetic on `float64` of
`bytes_per_key` is not modelled either.
-/
set_option autoImplicit false
namespace Radix

/-- What the commands `root` and `node` print. -/
inductive Printed
  | empty                                                      -- admin.go:67 "Index is empty"
  | invalid                                                    -- admin.go:97 "Invalid node"
  | leaf (raw : Word)                                          -- admin.go:134-137 one line for a leaf
  | node (raw : Word) (pfx : List UInt8) (lines : List Word)   -- admin.go:103, 108, 112-120 header, prefix, one line per slot
  deriving DecidableEq, Repr

/-- admin.go:85-121 `debugPrintNode`.  `len(idx.blocks)` is the constant `maxBlockCount` (radix.go: `blocks [maxBlockCount]*nodeBlock`), so
for `block = len(idx.blocks)` the second half of the condition at admin.go:96 indexes out of range; `nodeData` panics for a nil block
(admin.go:96 as well).  The offset is never larger than the size of a block, as it is masked. -/
def debugPrintNode (st : St) (raw : Word) : Res Printed :=
  if isLeaf raw then .ok (.leaf raw)
  else
    let value := nodeAddr raw
    if value / blockSlots > maxBlockCount then .ok .invalid
    else if value / blockSlots = maxBlockCount then .error .index
    else do
      let data ← st.nodeData value
      let r ← appendPrefix st.mem [] data (nodePlen raw)
      let data ← data.drop r.2
      let ws ← data.words st.mem (nodeCount raw)
      return .node raw r.1 ws

/-- admin.go:64-70: `Admin` with the command `root`. -/
def adminRoot (st : St) : Res Printed := if st.root = 0 then .ok .empty else debugPrintNode st st.root

/-- `node, _ := strconv.Atoi(argv[1])` (admin.go:77), from the documentation of `strconv`: 0 if the argument is no number (`none`), and the
nearest `int64` if the number is out of range. -/
def atoi : Option Int → Int
  | none => 0
  | some n => if n ≥ 2 ^ 63 then 2 ^ 63 - 1 else if n < -(2 ^ 63) then -(2 ^ 63) else n

/-- admin.go:72-78: `Admin` with the command `node` and one argument. -/
def adminNode (st : St) (arg : Option Int) : Res Printed := debugPrintNode st (UInt64.ofNat (atoi arg % 2 ^ 64).toNat)

/-- What `Stats` (and `Admin` with the command `info`, admin.go:20-29) reports, apart from the constants `block_size` and `locks_per_block`. -/
structure Stats where
  objects : Int          -- "objects_approx"
  blocks : Nat           -- "blocks_allocated"
  bytes : Nat            -- "bytes_allocated"
  perKey : Bool          -- whether there is an entry "bytes_per_key"
  allocators : Nat       -- "allocators"
  root : Word            -- "root_node"
  epoch : Nat            -- "current_epoch"
  deriving DecidableEq, Repr

/-- stats.go:8-25 `Stats`, in a state in which nobody else changes the variables read (the four loads are not simultaneous). -/
def St.stats (st : St) : Stats where
  objects := st.live
  blocks := st.nextFreeBlock + 1
  bytes := (st.nextFreeBlock + 1) * blockSize
  perKey := decide (st.live > 0)
  allocators := st.nalloc
  root := st.root
  epoch := st.epoch

/-- admin.go:51-62: `Admin` with the command `blocks`: the numbers in the table, with true for "allocated" and false for "in use". -/
def St.adminBlocks (st : St) : List (Nat × Bool) := (List.range (st.nextFreeBlock + 1)).map fun i => (i, decide (i = st.nextFreeBlock))

end Radix
