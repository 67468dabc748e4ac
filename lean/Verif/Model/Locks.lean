import Verif.Model.State
/-!
# Generation locks (`locks.go`)

Generations are unbounded integers here (`int32` in the code; wrap-around after 2^31 lock operations on one
lock is not modelled).
-/
namespace Radix

/-- locks.go:29-30 and copies: block and index of the lock of a node. -/
def lockBlock (node : Nat) : Nat := node / blockSlots
def lockIdx (node : Nat) : Nat := node % locksPerBlock

/-- The lock word of a node. -/
def St.gen (st : St) (node : Nat) : Int := st.locks (lockBlock node) (lockIdx node)

/-- Writing the lock word of a node. -/
def St.setGen (st : St) (node : Nat) (g : Int) : St :=
  { st with locks := fun b i => if b = lockBlock node ∧ i = lockIdx node then g else st.locks b i }

/-- locks.go:28-32 `generation` (panics on a nil block). -/
def St.generation (st : St) (node : Nat) : Res Int :=
  if lockBlock node < st.nblocks then .ok (st.gen node) else .error .nilBlock

/-- `lock2 != lock || block2 != block` (locks.go:59,97,132,156). -/
def lockDiffer (a b : Nat) : Bool := lockIdx a != lockIdx b || lockBlock a != lockBlock b

/-- `atomic.CompareAndSwapInt32(lock, gen, gen+1)`. -/
def St.casGen (st : St) (node : Nat) (gen : Int) : Bool × St :=
  if st.gen node = gen then (true, st.setGen node (gen + 1)) else (false, st)

/-- locks.go:165-172 `lockNode`. -/
def St.lockNode (st : St) (node : Nat) (gen : Int) : Bool × St :=
  if gen % 2 = 1 then (false, st) else st.casGen node gen

/-- locks.go:175-181 `unlockNode`; also the single steps of `unlockNodes2/3`. -/
def St.unlockNode (st : St) (node : Nat) : Res St :=
  if (st.gen node + 1) % 2 = 0 then .ok (st.setGen node (st.gen node + 1)) else .error .unlock

/-- locks.go:115-140 `lockNodes2`. -/
def St.lockNodes2 (st : St) (node : Nat) (nodeGen : Int) (parent : Nat) (parentGen : Int) : Bool × St :=
  if parent = 0 then st.lockNode node nodeGen
  else if nodeGen % 2 = 1 ∨ parentGen % 2 = 1 then (false, st)
  else
    match st.casGen node nodeGen with
    | (false, st) => (false, st)
    | (true, st) =>
      if lockDiffer parent node then
        match st.casGen parent parentGen with
        | (true, st) => (true, st)
        | (false, st) => (false, st.setGen node (st.gen node - 1))
      else (true, st)

/-- locks.go:143-162 `unlockNodes2`. -/
def St.unlockNodes2 (st : St) (node parent : Nat) : Res St :=
  if parent = 0 then st.unlockNode node
  else do
    let st ← st.unlockNode parent
    if lockDiffer node parent then st.unlockNode node else return st

/-- locks.go:42-80 `lockNodes3`. -/
def St.lockNodes3 (st : St) (child : Nat) (childGen : Int) (node : Nat) (nodeGen : Int)
    (parent : Nat) (parentGen : Int) : Bool × St :=
  if parent = 0 then st.lockNodes2 child childGen node nodeGen
  else if childGen % 2 = 1 ∨ nodeGen % 2 = 1 ∨ parentGen % 2 = 1 then (false, st)
  else
    match st.casGen child childGen with
    | (false, st) => (false, st)
    | (true, st) =>
      match (if lockDiffer node child then st.casGen node nodeGen else (true, st)) with
      | (false, st) => (false, st.setGen child (st.gen child - 1))
      | (true, st) =>
        if lockDiffer parent child && lockDiffer parent node then
          match st.casGen parent parentGen with
          | (true, st) => (true, st)
          | (false, st) =>
            let st := st.setGen child (st.gen child - 1)
            let st := if lockDiffer node child then st.setGen node (st.gen node - 1) else st
            (false, st)
        else (true, st)

/-- locks.go:84-111 `unlockNodes3`. -/
def St.unlockNodes3 (st : St) (child node parent : Nat) : Res St :=
  if parent = 0 then st.unlockNodes2 child node
  else do
    let st ← st.unlockNode parent
    let st ← if lockDiffer node parent then st.unlockNode node else pure st
    if lockDiffer child parent && lockDiffer child node then st.unlockNode child else return st

/-- locks.go:13-22 `lockLeafRoot`. -/
def St.lockLeafRoot (st : St) (expected : Word) : Bool × St :=
  if st.rootLock = 0 then
    if st.root = expected then (true, { st with rootLock := 1 }) else (false, st)
  else (false, st)

/-- locks.go:24-26 `unlockRoot`. -/
def St.unlockRoot (st : St) : St := { st with rootLock := st.rootLock - 1 }

end Radix
