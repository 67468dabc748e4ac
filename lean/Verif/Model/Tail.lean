import Verif.Model.Locks
import Verif.Model.Alloc
/-!
# What follows the publication of a change in `Finalize`
-/
namespace Radix

/-- The locks to release.  `words`: the lock words of these nodes, one after the other, each of them once. -/
inductive Unlock
  | none
  | root
  | two (node parent : Nat)
  | three (child node parent : Nat)
  | words (nodes : List Nat)
  deriving DecidableEq, Repr

/-- The rest of `UpdateOperation.Finalize` / `DeleteOperation.Finalize` after the store or compare-and-swap that publishes the
change: locks to release, memory to recycle, change of the allocator's item counter. -/
structure Tail where
  unl : Unlock := .none
  free : Option (Nat × Nat) := none
  items : Int := 0
  deriving DecidableEq, Repr

/-- The operation is ready to publish its change: what remains is one atomic store (`exp = none`) or compare-and-swap from `exp` to
`new` at `ptr`, and then `ok`, or `ko` if the compare-and-swap fails.  `nodes`: address and size of the nodes built for it, which nobody
else can reach yet. -/
structure Commit where
  ptr : Ptr
  exp : Option Word := none
  new : Word
  nodes : List (Nat × Nat) := []
  ok : Tail
  ko : Tail := {}
  deriving DecidableEq, Repr

/-- The store or compare-and-swap that publishes the change (update.go:268-416, delete.go:270-330). -/
def St.commit (st : St) (cm : Commit) : Bool × Tail × St :=
  match cm.exp with
  | none => (true, cm.ok, st.store cm.ptr cm.new)
  | some w => ((st.cas cm.ptr w cm.new).1, if (st.cas cm.ptr w cm.new).1 then cm.ok else cm.ko, (st.cas cm.ptr w cm.new).2)

/-- One addition after the other; a word shared with a node unlocked before (`done`) is skipped (locks.go:91-110, 149-161). -/
def St.unlockWords (st : St) (done : List Nat) : List Nat → Res St
  | [] => .ok st
  | n :: l =>
    if done.all (lockDiffer n) then do
      let st ← st.unlockNode n
      st.unlockWords (n :: done) l
    else st.unlockWords done l

/-- `op.idx.unlockRoot()`, `op.unlock()`, `op.unlock3()` (update.go:458-460, delete.go:361-363, 369-371). -/
def St.unlockBy (st : St) : Unlock → Res St
  | .none => .ok st
  | .root => .ok st.unlockRoot
  | .two node parent => st.unlockNodes2 node parent
  | .three child node parent => st.unlockNodes3 child node parent
  | .words l => st.unlockWords [] l

/-- The order in which `unlockNodes2`, `unlockNodes3` release the locks (locks.go:84-111, 143-162): from top to bottom. -/
def Unlock.plan : Unlock → List Nat
  | .none => []
  | .root => []
  | .two node parent => if parent = 0 then [node] else [parent, node]
  | .three child node parent => if parent = 0 then if node = 0 then [child] else [node, child] else [parent, node, child]
  | .words l => l

/-- The first atomic operation of `unlockRoot`, `unlockNodes2`, `unlockNodes3`, and what remains. -/
def St.unlockOne (st : St) : Unlock → Option (Res (Unlock × St))
  | .root => some (.ok (.none, st.unlockRoot))
  | u =>
    match u.plan with
    | [] => none
    | n :: l => some (do
        let st ← st.unlockNode n
        return (.words (l.filter fun m => lockDiffer m n), st))

/-- The end of `Finalize` for allocator `a` (update.go:265-425, delete.go:268-335): unlock, recycle, count, `endOp`. -/
def St.runTail (st : St) (a : Nat) (tl : Tail) : Res St := do
  let st ← st.unlockBy tl.unl
  let st ← match tl.free with
    | none => pure st
    | some (n, slots) => st.recycle a n slots
  return (st.addItems a tl.items).endOp a

end Radix
