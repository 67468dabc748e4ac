import Verif.Model.Sys
import Verif.Model.Serial
/-!
# Specification

The tree is specified as a map from keys to values.  `Run` pairs every execution of the system with the map obtained by applying,
one after the other, the updates and deletes whose `Finalize` returned true, at the moment of their publishing step.
-/
namespace Radix

/-- Contents of the tree. -/
abbrev Map := Key → Option Word

/-- The map, and for every allocator its current (or last) operation and the maps that were current at some moment since that
began. -/
structure Spec where
  map : Map
  call : Nat → Call
  window : Nat → List Map

/-- Before any operation. -/
def Spec.init : Spec := ⟨fun _ => none, fun _ => .lookup [], fun _ => []⟩

/-- A change of the map. -/
def Spec.change (σ : Spec) (key : Key) (v : Option Word) : Spec :=
  ⟨upd σ.map key v, σ.call, fun a => upd σ.map key v :: σ.window a⟩

/-- Effect of an event. -/
def Spec.next (σ : Spec) : Ev → Spec
  | .none => σ
  | .begun a c => { σ with call := upd σ.call a c, window := upd σ.window a [σ.map] }
  | .put key v => σ.change key (some v)
  | .del key => σ.change key none

/-- What the caller provides: the keys that may be stored, and the key of the object that a value refers to.
The keys are nonempty, none is a proper prefix of another (allocator.go, README), and their length is below `maxKeyLen`. -/
structure Env where
  keys : Key → Prop
  fetch : Word → Key
  ne : ∀ {k}, keys k → k ≠ []
  len : ∀ {k}, keys k → k.length < 2000000
  free : ∀ {k k'}, keys k → keys k' → k <+: k' → k = k'

/-- The documented contract (allocator.go:95-169): update keys come from the key set, other keys are nonempty, a stored value
refers to the object with this key, and a delete is finalized only if the candidate's key is the key to delete. -/
def Env.Allowed (env : Env) (s : Sys) : Act → Prop
  | .begin _ (.update key) => env.keys key
  | .begin _ (.delete key) => key ≠ []
  | .begin _ (.lookup key) => key ≠ []
  | .publish a value | .build a value =>
    match s.proc a with
    | .upd (.held _ op) => env.fetch (trunc55 value) = op.key
    | .del (.held cur) => env.fetch cur.op.value = cur.key
    | _ => True
  | _ => True

/-- The tree can be saved without losing anything: no operation is running, the block goroutine has published the number of the block after the
last one in use, and
the counters of the allocators have been flushed. -/
structure Sys.Savable (s : Sys) : Prop where
  idle : ∀ a, s.proc a = .idle
  ready : s.st.baReady = true ∨ s.st.baSent = false
  flushed : ∀ a, a < s.st.nalloc → (s.st.allocs a).itemCounter = 0

/-- Executions respecting the contract, and the further restriction `G`.  `reload`: the tree is saved and the execution continues
with the tree loaded from the data saved (that this is `St.restore` is C29). -/
inductive Run (env : Env) (G : Sys → Act → Prop) : Sys → Spec → Prop
  | init (n : Nat) : Run env G (Sys.new n) .init
  | reload {s σ} : Run env G s σ → s.Savable → Run env G ⟨s.st.restore, fun _ => .idle⟩ σ
  | step {s σ act s' ev} : Run env G s σ → env.Allowed s act → G s act → exec env.fetch s act = some (.ok (s', ev)) →
      Run env G s' (σ.next ev)

/-- What a lookup of `key` reads now, as the map entry of `key`: the candidate's value if its object has this key. -/
def content (fetch : Word → Key) (st : St) (key : Key) : Option Word :=
  match search st key with
  | .ok (some v) => if fetch v = key then some v else none
  | _ => none

end Radix
