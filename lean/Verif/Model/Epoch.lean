import Verif.Model.Alloc
/-!
# Epochs, one access to shared memory per step

In `Verif/Model/Sys.lean` the reservations are scanned in one step.  Here every access to the epoch and to the reservations is a step of its own: `startOp`
loads the epoch and stores it, `minReservation` loads one reservation after the other, `recycle` loads the epoch and later increases it.

The tree is a list of nodes (address and number of slots).  An operation replaces some of them by the nodes it has built, in one step.  An operation may
come across all nodes that were in the tree at some moment after it has stored its reservation (`known`), also later than they have been replaced.
-/
set_option autoImplicit false
namespace Radix

/-- allocator.go:210-238 `newNode` after the call of `minReservation`, which has returned `m`. -/
def St.newNodeWith (st : St) (a : Nat) (slots m : Nat) : Res (Nat × St) :=
  let al := st.allocs a
  match (sizesToTry slots).findSome? (fun t => (pickItem m (al.recycler t)).map (Prod.mk t)) with
  | some (t, it, rest) =>
    let rec1 := upd al.recycler t rest
    let rec2 := if t - slots ≥ 2 then upd rec1 (t - slots) (rec1 (t - slots) ++ [⟨it.n + slots, it.e⟩]) else rec1
    .ok (it.n, { st with allocs := upd st.allocs a { al with recycler := rec2 } })
  | none => st.allocFresh a slots

/-- allocator.go:185-187: the item goes to the free list, with the epoch `e` loaded before; `true` if a new epoch begins. -/
def St.recyclePush (st : St) (a : Nat) (node slots e : Nat) : Res (Bool × St) :=
  if slots < recyclerLen then
    let al := st.allocs a
    .ok (decide (al.counter + 1 ≥ 1000), { st with allocs := upd st.allocs a { al with
      recycler := upd al.recycler slots (al.recycler slots ++ [⟨node, e⟩])
      counter := al.counter + 1 } })
  else .error .index

/-- allocator.go:188-191: a new epoch. -/
def St.recycleBump (st : St) (a : Nat) : St :=
  { st with
    epoch := st.epoch + 1
    allocs := upd st.allocs a { st.allocs a with counter := 0 } }.flushStats a

/-- What an allocator is doing.
* `start`: in `startOp` (allocator.go:171-173); the epoch it has loaded.
* `op`: the reservation is stored.
* `scan`: in `minReservation` (epoch.go:39-48); the next reservation to load, and the smallest one so far.
* `freed`: in `recycle` (allocator.go:180-193); the node and the epoch it has loaded.  `bump`: before line 188. -/
inductive EPh
  | idle
  | start (e : Nat)
  | op
  | scan (i m : Nat)
  | freed (n slots e : Nat)
  | bump
  deriving DecidableEq, Repr

/-- Address and number of slots of a node. -/
abbrev Piece := Nat × Nat

/-- `priv`: the nodes an allocator has been given and is filling.  `owed`: the nodes it has taken out of the tree and has to recycle.  `known`: the
nodes its operation may have come across. -/
structure ESys where
  st : St
  ph : Nat → EPh
  tree : List Piece
  priv : Nat → List Piece
  owed : Nat → List Piece
  known : Nat → List Piece

def ESys.new (n : Nat) : ESys := ⟨St.new n, fun _ => .idle, [], fun _ => [], fun _ => [], fun _ => []⟩

inductive EAct
  | load (a : Nat)
  | store (a : Nat)
  | scan (a : Nat)
  | look (a : Nat)
  | take (a slots : Nat)
  | drop (a : Nat)
  | swap (a : Nat) (out lost : List Piece)
  | fetch (a : Nat)
  | push (a : Nat)
  | bump (a : Nat)
  | done (a : Nat)
  | flush (a : Nat)
  | block
  deriving DecidableEq, Repr

def EAct.who : EAct → Option Nat
  | .load a | .store a | .scan a | .look a | .take a _ | .drop a | .swap a _ _ | .fetch a | .push a | .bump a | .done a | .flush a => some a
  | .block => none

/-- The first list without the elements of the second, each of which it has to have. -/
def takeOut : List Piece → List Piece → Option (List Piece)
  | l, [] => some l
  | l, x :: xs => if x ∈ l then takeOut (l.erase x) xs else none

def EPh.active : EPh → Bool
  | .idle | .start _ => false
  | _ => true

/-- One step of an existing allocator.
* `load`, `store`: allocator.go:172.  `scan`, `look`: epoch.go:40-46.  `take`: the rest of `newNode`, which concerns the allocator itself, or receives a block.
* `swap`: the store or compare-and-swap of `Finalize`: the nodes built are in the tree, the nodes in `out` and `lost` are not any more; those in `out` will be
  recycled.  `drop`: the compare-and-swap fails.
* `fetch`: allocator.go:181-184.  `push`: 185-187.  `bump`: 188-190.  `done`: allocator.go:177.  `flush`: `FlushStats`.  `block`: the block goroutine. -/
def eexec (s : ESys) : EAct → Option (Res ESys)
  | .load a => if s.ph a = .idle then some (.ok { s with ph := upd s.ph a (.start s.st.epoch) }) else none
  | .store a =>
    match s.ph a with
    | .start e => some (.ok { s with st := { s.st with resv := upd s.st.resv a e }, ph := upd s.ph a .op, known := upd s.known a s.tree })
    | _ => none
  | .scan a => if s.ph a = .op then some (.ok { s with ph := upd s.ph a (.scan 0 maxUint64) }) else none
  | .look a =>
    match s.ph a with
    | .scan i m =>
      if i < s.st.nalloc then some (.ok { s with ph := upd s.ph a (.scan (i + 1) (if s.st.resv i < m then s.st.resv i else m)) })
      else none
    | _ => none
  | .take a slots =>
    match s.ph a with
    | .scan i m =>
      if i = s.st.nalloc ∧ 2 ≤ slots ∧ slots + 1 < blockSlots then some (do
        let (n, st) ← s.st.newNodeWith a slots m
        return { s with st := st, ph := upd s.ph a .op, priv := upd s.priv a (s.priv a ++ [(n, slots)]) })
      else none
    | _ => none
  | .drop a => if s.ph a = .op then some (.ok { s with priv := upd s.priv a [] }) else none
  | .swap a out lost =>
    if s.ph a = .op then
      match takeOut s.tree (out ++ lost) with
      | some keep =>
        some (.ok { s with
          tree := keep ++ s.priv a
          priv := upd s.priv a []
          owed := upd s.owed a (s.owed a ++ out)
          known := fun b => if (s.ph b).active then s.known b ++ (keep ++ s.priv a) else s.known b })
      | none => none
    else none
  | .fetch a =>
    if s.ph a = .op then
      match s.owed a with
      | (n, slots) :: rest =>
        if slots > recyclerLen then some (.ok { s with owed := upd s.owed a rest })
        else some (.ok { s with ph := upd s.ph a (.freed n slots s.st.epoch), owed := upd s.owed a rest })
      | [] => none
    else none
  | .push a =>
    match s.ph a with
    | .freed n slots e => some (do
        let (b, st) ← s.st.recyclePush a n slots e
        return { s with st := st, ph := upd s.ph a (if b then .bump else .op) })
    | _ => none
  | .bump a => if s.ph a = .bump then some (.ok { s with st := s.st.recycleBump a, ph := upd s.ph a .op }) else none
  | .done a =>
    if s.ph a = .op ∧ s.priv a = [] ∧ s.owed a = [] then
      some (.ok { s with st := s.st.endOp a, ph := upd s.ph a .idle, known := upd s.known a [] })
    else none
  | .flush a => some (.ok { s with st := s.st.flushStats a })
  | .block => some (do
      let st ← s.st.blockStep
      return { s with st := st })

/-- Executions. -/
inductive ERun : ESys → Prop
  | init (n : Nat) : ERun (ESys.new n)
  | step {s s' : ESys} {act : EAct} : ERun s → (∀ a, act.who = some a → a < s.st.nalloc) → eexec s act = some (.ok s') → ERun s'

end Radix
