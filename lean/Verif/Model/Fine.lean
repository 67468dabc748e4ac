import Verif.Model.LockSteps
import Verif.Model.Readers
import Verif.Model.Sys
/-!
# The system with one atomic access per step

In `Verif/Model/Sys.lean` reading a node, and taking the locks of up to three nodes, are single steps.  Here every load, every
compare-and-swap and every addition of `PrepareUpdate` and `PrepareDelete`, and every addition that releases a lock, is a step of its own;
other allocators may do anything in between.

The state is the one of `Verif/Model/Sys.lean`; in addition every allocator has a place (`FPh`) inside the step it is performing there.

Simplifications: building the new nodes (memory nobody else can reach; the loads of the node copied are part of that step, see
`Verif/Model/Torn.lean`), and the end of
`Finalize` after the locks have been released (`recycle`, the item counter, `endOp`; the data of the allocator itself, and one store of the
reservation) are one step each.
-/
set_option autoImplicit false
namespace Radix

/-! ## Reading a node, load by load -/

/-- update.go:191-217: what follows the load of the slot `p` of a 256-slot node. -/
def UpdOp.slot256 (op : UpdOp) (p : Nat) (a : Word) : UPh :=
  if a = 0 then .lock false { op with kind := .nodeLeafInsert256, leafPtr := .slot p }
  else if isLeaf a then
    .lock true { op with kind := .nodeLeafUpdate256, leafPtr := .slot p, currentLeaf := a, value := leafValue a }
  else .gen (op.enterNode p a)

/-- update.go:236-257: what follows the scan of a variable sized node, which has stopped at position `i` with the word `a`. -/
def UpdOp.kid (op : UpdOp) (base i : Nat) (a : Word) : UPh :=
  let op := { op with position := i }
  if keyByte a = op.k then
    if isLeaf a then
      .lock true { op with kind := .nodeLeafUpdate, leafPtr := .slot (base + i), currentLeaf := a, value := leafValue a }
    else .gen (op.enterNode (base + i) a)
  else .lock false { op with kind := .nodeLeafInsert }

/-- update.go:226-235, delete.go:174-181: load the children from position `i` on, `n` left, until one has a byte `≥ k`; its position (the
number of children if there is none) and the last word loaded. -/
def scanAt (data : Slice) (k : UInt8) : Nat → Nat → Word → Prog (Nat × Word)
  | 0, i, a => pure (i, a)
  | n + 1, i, _ => do
    let a ← data.getP i
    if keyByte a ≥ k then return (i, a) else scanAt data k n (i + 1) a

/-- update.go:186-257: the part of a visit after the prefix; `data` is the data after the prefix. -/
def childrenUP (op : UpdOp) (data : Slice) : Prog UPh := do
  let k ← Prog.ret (keyAt op.key op.depth)
  if op.count ≥ fullAllocFrom then do
    let a ← data.getP k.toNat
    return { op with k := k }.slot256 (data.base + k.toNat) a
  else do
    data.checkP op.count
    let r ← scanAt data k op.count 0 0
    return { op with k := k }.kid data.base r.1 r.2

/-- update.go:159-257: reading the node. -/
def bodyUP (op : UpdOp) : Prog UPh := do
  let data ← nodeDataP op.node
  if nodePlen op.raw > 0 then do
    let r ← appendPrefixP [] data (nodePlen op.raw)
    match ← Prog.ret (cmpPrefix (op.key.drop op.depth) r.1) with
    | some i => do
      let k ← Prog.ret (keyAt op.key op.depth)
      return .lock false { op with data := data, pfx := r.1, prefixSlots := r.2, kind := .nodePrefixMiss, k := k, prefixMismatch := i }
    | none => do
      let data' ← Prog.ret (data.drop r.2)
      childrenUP { op with data := data, pfx := r.1, prefixSlots := r.2, depth := op.depth + r.1.length } data'
  else
    childrenUP { op with data := data, pfx := [], prefixSlots := 0 } data

/-- delete.go:151-166: what follows the load of the slot `p` of a 256-slot node. -/
def DelCur.slot256 (cur : DelCur) (p : Nat) (a : Word) : DPh :=
  if a = 0 then .miss cur.key
  else if isLeaf a then .held { cur with op := { cur.op with raw := a, leafPtr := .slot p, kind := .deleteLeaf256, value := leafValue a } }
  else .gen (cur.enterNode p a)

/-- delete.go:182-261: what follows the scan of a variable sized node, which has stopped at position `i` with the word `a`. -/
def DelCur.kid (cur : DelCur) (count plen base : Nat) (k : UInt8) (i : Nat) (a : Word) : DPh :=
  if keyByte a = k then
    if isLeaf a then
      if count = 2 then .other { cur with op := { cur.op with leafPosition := i, value := leafValue a } } (base + (1 - i)) plen
      else .lock { cur with op := { cur.op with leafPosition := i, count := count, kind := .deleteLeaf, value := leafValue a } }
    else .gen (cur.enterNode (base + i) a)
  else .miss cur.key

/-- delete.go:143-261: the part of a visit after the prefix. -/
def childrenDP (cur : DelCur) (count plen : Nat) (data : Slice) : Prog DPh :=
  if cur.depth ≥ cur.key.length then pure (.miss cur.key)
  else do
    let k ← Prog.ret (keyAt cur.key cur.depth)
    if count ≥ fullAllocFrom then do
      let a ← data.getP k.toNat
      return cur.slot256 (data.base + k.toNat) a
    else do
      data.checkP count
      let r ← scanAt data k count 0 0
      return cur.kid count plen data.base k r.1 r.2

/-- delete.go:122-261: reading the node. -/
def bodyDP (cur : DelCur) : Prog DPh := do
  let data ← nodeDataP cur.op.node
  let r ← skipPrefixP data (nodePlen cur.op.raw)
  childrenDP { cur with op := { cur.op with data := data, prefixLen := r.1, prefixSlots := r.2.1 }, depth := cur.depth + r.1 }
    (nodeCount cur.op.raw) (nodePlen cur.op.raw) r.2.2

/-- delete.go:232-245: reading the prefixes of the node and of its other child, once they are locked. -/
def mergeP (cur : DelCur) (other : Word) (plen : Nat) : Prog DPh := do
  let r ← appendPrefixP [] cur.op.data plen
  let data ← nodeDataP cur.op.child
  let r2 ← appendPrefixP (r.1 ++ [keyByte other]) data (nodePlen other)
  return .held { cur with op := { cur.op with pfx := r2.1, data := data, prefixSlots := r2.2, kind := .replaceNodeWithNode } }

/-! ## The root lock -/

/-- update.go:112-117, 122-135: after `lockLeafRoot(root)` has succeeded. -/
def rootHeldU (key : Key) (root : Word) : Res UPh := do
  let k ← keyAt key 0
  if root = 0 then return .held false { key := key, k := k, kind := .replaceEmptyRootWithLeaf }
  else if keyByte root = k then
    return .held true { key := key, k := k, currentLeaf := root, kind := .rootLeafUpdate, value := leafValue root }
  else return .held false { key := key, k := k, currentLeaf := root, kind := .replaceLeafRootWithNode }

/-- delete.go:91-94. -/
def rootHeldD (key : Key) (root : Word) : DPh :=
  .held { op := { kind := .deleteRoot, raw := root, value := leafValue root }, key := key, root := root, depth := 0 }

/-! ## The system -/

/-- The place inside the step an operation is performing.
* `readU`, `readD`: reading a node; the loads still to be made.
* `take`: in `lockNodes2` or `lockNodes3` (locks.go:42-80, 115-140, 165-172); the compare-and-swaps to do, and the words taken, with their generations before.
* `merge`: the three locks are taken, the prefixes are being read (delete.go:232-241).
* `back`: a compare-and-swap has failed; the words to be given back.
* `root`: in `lockLeafRoot` (locks.go:13-22), the root lock is taken, the root is not compared yet; `rootBack`: it was different. -/
inductive FPh
  | none
  | readU (P : Prog UPh)
  | readD (P : Prog DPh)
  | take (todo got : List (Nat × Int))
  | merge (got : List (Nat × Int)) (P : Prog DPh)
  | back (todo : List (Nat × Int))
  | root
  | rootBack

/-- The state of the system, with the places of the allocators. -/
structure FSys where
  sys : Sys
  fine : Nat → FPh

/-- A new tree. -/
def FSys.new (n : Nat) : FSys := ⟨Sys.new n, fun _ => .none⟩

def FSys.set (f : FSys) (a : Nat) (st : St) (p : Proc) (ph : FPh) : FSys := ⟨f.sys.set a st p, upd f.fine a ph⟩

/-- One access. -/
def Prog.next {α : Type} (st : St) : Prog α → Prog α
  | .ret r => .ret r
  | .root k => k st.root
  | .blocks k => k st.nblocks
  | .load x k => k (st.mem x)

/-- An access of an update that reads a node. -/
def FSys.readU (f : FSys) (a : Nat) (P : Prog UPh) : Res FSys :=
  match P.next f.sys.st with
  | .ret r => do
    let ph ← r
    return f.set a f.sys.st (.upd ph) .none
  | P' => .ok (f.set a f.sys.st (f.sys.proc a) (.readU P'))

/-- An access of a delete that reads a node. -/
def FSys.readD (f : FSys) (a : Nat) (P : Prog DPh) : Res FSys :=
  match P.next f.sys.st with
  | .ret r => do
    let ph ← r
    return f.set a f.sys.st (.del ph) .none
  | P' => .ok (f.set a f.sys.st (f.sys.proc a) (.readD P'))

/-- An access of a delete that reads prefixes. -/
def FSys.readM (f : FSys) (a : Nat) (got : List (Nat × Int)) (P : Prog DPh) : Res FSys :=
  match P.next f.sys.st with
  | .ret r => do
    let ph ← r
    return f.set a f.sys.st (.del ph) .none
  | P' => .ok (f.set a f.sys.st (f.sys.proc a) (.merge got P'))

/-- One compare-and-swap of `lockNodes2` or `lockNodes3`: if it fails, the words taken have to be given back and the operation starts again
(`again`); after the last one the operation goes on with `won`. -/
def FSys.cas (f : FSys) (a : Nat) (again won : Proc) (wonAt : List (Nat × Int) → FPh) : List (Nat × Int) → List (Nat × Int) → FSys
  | [], got => f.set a f.sys.st won (wonAt got)
  | (n, g) :: todo, got =>
    if f.sys.st.gen n = g then
      if todo.isEmpty then f.set a (f.sys.st.setGen n (g + 1)) won (wonAt (got ++ [(n, g)]))
      else f.set a (f.sys.st.setGen n (g + 1)) (f.sys.proc a) (.take todo (got ++ [(n, g)]))
    else f.set a f.sys.st again (if got.isEmpty then .none else .back got)

/-- The first compare-and-swap; the arguments are checked before (locks.go:46-49, 119-122, 166-168). -/
def FSys.casFirst (f : FSys) (a : Nat) (again won : Proc) (wonAt : List (Nat × Int) → FPh) (req : LockReq) : FSys :=
  match lockPlan req with
  | none => f.set a f.sys.st again .none
  | some plan => f.cas a again won wonAt plan []

/-- The arguments of `op.lock()` (update.go:454-456, delete.go:358-360) and `op.lock3()` (delete.go:366-368). -/
def UpdOp.req (op : UpdOp) : LockReq := .two op.node op.nodeGen op.parent op.parentGen
def DelOp.req (op : DelOp) : LockReq := .two op.node op.nodeGen op.parent op.parentGen
def DelOp.req3 (op : DelOp) : LockReq := .three op.child op.childGen op.node op.nodeGen op.parent op.parentGen

/-- One access to shared memory by `PrepareUpdate`, `PrepareDelete` or `Lookup` of allocator `a`. -/
def fstep (fetch : Word → Key) (f : FSys) (a : Nat) : Option (Res FSys) :=
  match f.fine a, f.sys.proc a with
  -- locks.go:13-22
  | .none, .upd (.root key _) =>
    if f.sys.st.rootLock = 0 then some (.ok (f.set a { f.sys.st with rootLock := 1 } (f.sys.proc a) .root))
    else some (.ok (f.set a f.sys.st (.upd (.start key)) .none))
  | .none, .del (.root key _) =>
    if f.sys.st.rootLock = 0 then some (.ok (f.set a { f.sys.st with rootLock := 1 } (f.sys.proc a) .root))
    else some (.ok (f.set a f.sys.st (.del (.start key)) .none))
  | .root, .upd (.root key root) =>
    if f.sys.st.root = root then some (do
      let ph ← rootHeldU key root
      return f.set a f.sys.st (.upd ph) .none)
    else some (.ok (f.set a f.sys.st (.upd (.start key)) .rootBack))
  | .root, .del (.root key root) =>
    if f.sys.st.root = root then some (.ok (f.set a f.sys.st (.del (rootHeldD key root)) .none))
    else some (.ok (f.set a f.sys.st (.del (.start key)) .rootBack))
  | .rootBack, p => some (.ok (f.set a { f.sys.st with rootLock := f.sys.st.rootLock - 1 } p .none))
  -- reading a node
  | .none, .upd (.body op) => some (f.readU a (bodyUP op))
  | .readU P, _ => some (f.readU a P)
  | .none, .del (.body cur) => some (f.readD a (bodyDP cur))
  | .readD P, _ => some (f.readD a P)
  -- taking locks
  | .none, .upd (.lock found op) => some (.ok (f.casFirst a (.upd (.start op.key)) (.upd (.held found op)) (fun _ => .none) op.req))
  | .take todo got, .upd (.lock found op) => some (.ok (f.cas a (.upd (.start op.key)) (.upd (.held found op)) (fun _ => .none) todo got))
  | .none, .del (.lock cur) => some (.ok (f.casFirst a (.del (.start cur.key)) (.del (.held cur)) (fun _ => .none) cur.op.req))
  | .take todo got, .del (.lock cur) => some (.ok (f.cas a (.del (.start cur.key)) (.del (.held cur)) (fun _ => .none) todo got))
  | .none, .del (.lock3 cur other plen) =>
    some (.ok (f.casFirst a (.del (.start cur.key)) (f.sys.proc a) (fun got => .merge got (mergeP cur other plen)) cur.op.req3))
  | .take todo got, .del (.lock3 cur other plen) =>
    some (.ok (f.cas a (.del (.start cur.key)) (f.sys.proc a) (fun got => .merge got (mergeP cur other plen)) todo got))
  | .merge got P, _ => some (f.readM a got P)
  -- giving back: the additions in locks.go:62, 72-75, 135
  | .back ((n, _) :: todo), p =>
    some (.ok (f.set a (f.sys.st.setGen n (f.sys.st.gen n - 1)) p (if todo.isEmpty then .none else .back todo)))
  -- all other steps are single accesses
  | .none, _ => (exec fetch f.sys (.run a)).map fun r => do
      let r ← r
      return ⟨r.1, f.fine⟩
  | _, _ => none

/-- The steps. -/
inductive FAct
  | begin (a : Nat) (c : Call)
  | arm (a : Nat)
  | step (a : Nat)
  | build (a : Nat) (value : Word)
  | commit (a : Nat)
  | unlock (a : Nat)
  | tail (a : Nat)
  | quit (a : Nat)
  | finish (a : Nat)
  | flush (a : Nat)
  | block
  deriving DecidableEq, Repr

/-- The steps that are the same in `Verif/Model/Sys.lean`. -/
def FAct.act : FAct → Act
  | .begin a c => .begin a c
  | .arm a => .arm a
  | .step a => .run a
  | .build a v => .build a v
  | .commit a => .commit a
  | .unlock a => .unlock a
  | .tail a => .tail a
  | .quit a => .quit a
  | .finish a => .finish a
  | .flush a => .flush a
  | .block => .block

/-- No lock left to release. -/
def Proc.released (p : Proc) : Bool :=
  match p with
  | .upd (.tail _ tl) => tl.unl ≠ .root && tl.unl.plan.isEmpty
  | .del (.tail _ tl) => tl.unl ≠ .root && tl.unl.plan.isEmpty
  | _ => false

/-- One step; `none` if it is not possible now. -/
def fexec (fetch : Word → Key) (f : FSys) : FAct → Option (Res (FSys × Ev))
  | .step a => (fstep fetch f a).map fun r => do
      let f ← r
      return (f, .none)
  | .tail a => if (f.sys.proc a).released then (exec fetch f.sys (.tail a)).map fun r => do
      let r ← r
      return (⟨r.1, f.fine⟩, r.2) else none
  | act => (exec fetch f.sys act.act).map fun r => do
      let r ← r
      return (⟨r.1, f.fine⟩, r.2)

end Radix
