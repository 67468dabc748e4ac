import Verif.Model.Fine
/-!
# Copying a node word by word

In `Verif/Model/Fine.lean` `Finalize` builds its new nodes in one step, the loads of the words it copies included.  Here each of these loads
can be a step of its own (`load`), and other goroutines may do anything between two of them.  The step `build` uses the words loaded before,
and loads the others.

Simplifications: the words may be loaded in any order, and any number of them before the step `build`; the code loads all of them one after the
other (so it has fewer executions).  The new nodes are allocated and filled in the step `build`, as in `Verif/Model/Fine.lean`; nobody else
reaches them before they are published.
-/
set_option autoImplicit false
namespace Radix

/-- The words that `Finalize` copies to a new node: the address of the first one, and their number.
* update.go:319-320 (`nodePrefixMiss`): the children.
* update.go:345-354, 370-378 (`nodeLeafInsert`): prefix and children.
* delete.go:288-289 (`replaceNodeWithNode`): the children of the child.
* delete.go:304-308 (`deleteLeaf`): prefix and children. -/
def Proc.source : Proc → Nat × Nat
  | .upd (.held _ op) =>
    match op.kind with
    | .nodePrefixMiss => (op.data.base + op.prefixSlots, op.count)
    | .nodeLeafInsert => (op.data.base, op.prefixSlots + op.count)
    | _ => (0, 0)
  | .del (.held cur) =>
    match cur.op.kind with
    | .replaceNodeWithNode => (cur.op.data.base + cur.op.prefixSlots, cur.op.count)
    | .deleteLeaf => (cur.op.data.base, cur.op.count + cur.op.prefixSlots)
    | _ => (0, 0)
  | _ => (0, 0)

/-- The word at address `x` is one of them. -/
def Proc.copies (p : Proc) (x : Nat) : Prop := p.source.1 ≤ x ∧ x < p.source.1 + p.source.2

instance (p : Proc) (x : Nat) : Decidable (p.copies x) := inferInstanceAs (Decidable (_ ∧ _))

/-- The state of the system, with the words every allocator has loaded in order to copy them (addresses and words). -/
structure TSys where
  f : FSys
  got : Nat → List (Nat × Word)

/-- A new tree. -/
def TSys.new (n : Nat) : TSys := ⟨FSys.new n, fun _ => []⟩

/-- The memory as seen by an allocator that has loaded the words `l` before. -/
def patch (m : Mem) (l : List (Nat × Word)) : Mem := fun x => (l.lookup x).getD (m x)

def FSys.withMem (f : FSys) (m : Mem) : FSys := ⟨⟨{ f.sys.st with mem := m }, f.sys.proc⟩, f.fine⟩

/-- The word at address `x` belongs to a new node. -/
def Proc.fills : Proc → Nat → Bool
  | .updB _ _ cm, x => cm.nodes.any fun n => decide (n.1 ≤ x ∧ x < n.1 + n.2)
  | .delB _ cm, x => cm.nodes.any fun n => decide (n.1 ≤ x ∧ x < n.1 + n.2)
  | _, _ => false

/-- The step `build`: the new nodes are filled with the words loaded before; the memory otherwise stays as it is. -/
def tbuild (fetch : Word → Key) (τ : TSys) (a : Nat) (value : Word) : Option (Res (TSys × Ev)) :=
  (fexec fetch (τ.f.withMem (patch τ.f.sys.st.mem (τ.got a))) (.build a value)).map fun r => do
    let r ← r
    let m : Mem := fun x => if (r.1.sys.proc a).fills x then r.1.sys.st.mem x else
      if (τ.got a).any (fun y => y.1 == x) then τ.f.sys.st.mem x else r.1.sys.st.mem x
    return (⟨r.1.withMem m, upd τ.got a []⟩, r.2)

/-- The steps: a load of a word to be copied, or a step of `Verif/Model/Fine.lean`. -/
inductive TAct
  | load (a x : Nat)
  | act (act : FAct)
  deriving DecidableEq, Repr

/-- `Abort` (update.go:427-439, delete.go:337-352) gives up the words loaded. -/
def TSys.gotAfter (τ : TSys) : FAct → Nat → List (Nat × Word)
  | .quit a => upd τ.got a []
  | _ => τ.got

/-- One step; `none` if it is not possible now. -/
def texec (fetch : Word → Key) (τ : TSys) : TAct → Option (Res (TSys × Ev))
  | .load a x => if (τ.f.sys.proc a).copies x then some (.ok (⟨τ.f, upd τ.got a (τ.got a ++ [(x, τ.f.sys.st.mem x)])⟩, .none)) else none
  | .act (.build a value) => tbuild fetch τ a value
  | .act act => (fexec fetch τ.f act).map fun r => do
      let r ← r
      return (⟨r.1, τ.gotAfter act⟩, r.2)

end Radix
