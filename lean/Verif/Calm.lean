import Verif.SearchProof
import Verif.ActFacts
/-!
# Restrictions on executions

The code has races (see `DESIGN.md`, findings) that make some properties fail.  `Calm` excludes exactly the steps in which they
show; it does not restrict an execution otherwise.  `Verif/Sys/Seq.lean` shows that executions without overlapping operations
are calm.
-/
namespace Radix

/-- The part of `Finalize` after publishing that is still to be done. -/
def Proc.tail? : Proc → Option Tail
  | .upd (.tail _ tl) => some tl
  | .del (.tail _ tl) => some tl
  | _ => none

/-- Some operation has published its change (or has been aborted) and still holds the lock of `n`. -/
def Sys.Window (s : Sys) (n : Nat) : Prop := ∃ a tl, (s.proc a).tail? = some tl ∧ ∃ m ∈ tl.unl.list, sameLock m n

/-- Passing from `parent` to `node`, to which `raw` refers, does no harm: nobody has published a change and holds the lock of `parent`; or that
holds for the lock of `node`, too; or `node` is in the tree. -/
def Sys.Safe (s : Sys) (parent node : Nat) (raw : Word) : Prop := ¬ s.Window parent ∨ s.Window node ∨ Reach s.st raw

/-- The change that `Finalize` has prepared and is about to publish. -/
def Proc.cm? : Proc → Option Commit
  | .updB _ _ cm => some cm
  | .delB _ cm => some cm
  | _ => none

/-- Slots of new nodes that are not in the tree yet. -/
def Proc.priv (p : Proc) (x : Nat) : Nat :=
  match p.cm? with
  | some cm => cm.priv x
  | none => 0

/-- Slots of a node that has been copied, while the copy has not replaced it yet. -/
def Proc.copied (p : Proc) (x : Nat) : Nat :=
  match p.cm? with
  | some cm => cm.ok.seg x
  | none => 0

/-- Some operation has copied this slot of a node, but has not put the copy into the tree yet. -/
def Sys.Copied (s : Sys) (x : Nat) : Prop := ∃ a, 0 < (s.proc a).copied x

/-- The steps in which the races of the code do not show.
* `begin` of a lookup or walk: the first block exists (race with the block goroutine started by `NewTree`).
* `par`: an operation does not pass the check of its parent's generation while that lock is held by an operation that has
  already published its change (update.go:155, delete.go:118 do not test whether the generation is odd), unless the node is still in
  the tree or is itself locked by such an operation.
* `lock3`: if the locks of child, node and parent are taken, the generations of node and parent are the ones read before
  (locks.go:59,66 skip the comparison for lock words shared with another of the three nodes).
* `publish` and `commit` of a `deleteLeaf256`: if the compare-and-swap succeeds, the slot belongs to a node that is still in the tree,
  and nobody has copied this node to replace it by the copy (delete.go:158 takes no lock).
* `abort` of a `replaceNodeWithNode` without parent: delete.go:344 then unlocks lock word (0,0); this is only harmless if it is
  shared with one of the nodes, or is free (then it panics).  `quit` for this case only if it is shared. -/
def Calm (s : Sys) : Act → Prop
  | .begin _ (.lookup _) => 0 < s.st.nblocks
  | .begin _ .walk => 0 < s.st.nblocks
  | .run a =>
    match s.proc a with
    | .upd (.par op) => op.parent ≠ 0 → s.st.gen op.parent = op.parentGen → s.Safe op.parent op.node op.raw
    | .del (.par cur) => cur.op.parent ≠ 0 → s.st.gen cur.op.parent = cur.op.parentGen → s.Safe cur.op.parent cur.op.node cur.op.raw
    | .del (.lock3 cur _ _) =>
      (s.st.lockNodes3 cur.op.child cur.op.childGen cur.op.node cur.op.nodeGen cur.op.parent cur.op.parentGen).1 = true →
        s.st.gen cur.op.node = cur.op.nodeGen ∧ (cur.op.parent ≠ 0 → s.st.gen cur.op.parent = cur.op.parentGen)
    | _ => True
  | .publish a _ =>
    match s.proc a with
    | .del (.held cur) => cur.op.kind = .deleteLeaf256 → s.st.load cur.op.leafPtr = cur.op.raw →
        ∃ p, cur.op.leafPtr = .slot p ∧ LiveSlot s.st p ∧ ¬ s.Copied p
    | _ => True
  | .commit a =>
    match s.proc a with
    | .delB cur _ => cur.op.kind = .deleteLeaf256 → s.st.load cur.op.leafPtr = cur.op.raw →
        ∃ p, cur.op.leafPtr = .slot p ∧ LiveSlot s.st p ∧ ¬ s.Copied p
    | _ => True
  | .quit a =>
    match s.proc a with
    | .del (.held cur) => cur.op.kind = .replaceNodeWithNode → cur.op.parent = 0 → sameLock 0 cur.op.node ∨ sameLock 0 cur.op.child
    | _ => True
  | .abort a =>
    match s.proc a with
    | .del (.held cur) => cur.op.kind = .replaceNodeWithNode → cur.op.parent = 0 →
        sameLock 0 cur.op.node ∨ sameLock 0 cur.op.child ∨ s.st.gen 0 % 2 = 0
    | _ => True
  | _ => True

end Radix
