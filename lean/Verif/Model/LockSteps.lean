import Verif.LockProof
/-!
# The lock protocol, one atomic operation at a time (`locks.go:40-181`)

In `Verif/Model/Locks.lean` (and in `Verif/Model/Sys.lean`) taking several locks is one step.  Here every compare-and-swap and every
addition is a step of its own, and any number of threads interleave them.  The comparisons of block and lock index, which decide which
words have to be taken, depend on the arguments only; they are collected in `lockPlan` and `unlockPlan`.  `runLock_lockNodes2`,
`runLock_lockNodes3` show that without interruption the steps compute the functions of `Verif/Model/Locks.lean`.
-/
namespace Radix

/-- Arguments of `lockNodes2`, `lockNodes3`: nodes with the generations read before. -/
inductive LockReq
  | two (node : Nat) (nodeGen : Int) (parent : Nat) (parentGen : Int)
  | three (child : Nat) (childGen : Int) (node : Nat) (nodeGen : Int) (parent : Nat) (parentGen : Int)

/-- The nodes to be locked (`parent` only if it is not zero). -/
def LockReq.nodes : LockReq → List Nat
  | .two node _ parent _ => if parent = 0 then [node] else [node, parent]
  | .three child _ node _ parent _ => if parent = 0 then if node = 0 then [child] else [child, node] else [child, node, parent]

/-- locks.go:115-139, 165-172: the checks of the arguments of `lockNodes2` and `lockNode`; then the sequence of compare-and-swaps. -/
def lockPlan2 (node : Nat) (nodeGen : Int) (parent : Nat) (parentGen : Int) : Option (List (Nat × Int)) :=
  if parent = 0 then if nodeGen % 2 = 1 then none else some [(node, nodeGen)]
  else if nodeGen % 2 = 1 ∨ parentGen % 2 = 1 then none
  else some ((node, nodeGen) :: if lockDiffer parent node then [(parent, parentGen)] else [])

/-- locks.go:42-79, the same for `lockNodes3`. -/
def lockPlan : LockReq → Option (List (Nat × Int))
  | .two node nodeGen parent parentGen => lockPlan2 node nodeGen parent parentGen
  | .three child childGen node nodeGen parent parentGen =>
    if parent = 0 then lockPlan2 child childGen node nodeGen
    else if childGen % 2 = 1 ∨ nodeGen % 2 = 1 ∨ parentGen % 2 = 1 then none
    else some ((child, childGen) :: ((if lockDiffer node child then [(node, nodeGen)] else []) ++
      if lockDiffer parent child && lockDiffer parent node then [(parent, parentGen)] else []))

/-- locks.go:143-162, 175-181: the sequence of additions in `unlockNodes2` and `unlockNode`. -/
def unlockPlan2 (node parent : Nat) : List Nat :=
  if parent = 0 then [node] else parent :: if lockDiffer node parent then [node] else []

/-- locks.go:84-111: the same for `unlockNodes3`; the operation unlocks the nodes it has locked (update.go, delete.go:324, 330). -/
def unlockPlan : LockReq → List Nat
  | .two node _ parent _ => unlockPlan2 node parent
  | .three child _ node _ parent _ =>
    if parent = 0 then unlockPlan2 child node
    else parent :: ((if lockDiffer node parent then [node] else []) ++
      if lockDiffer child parent && lockDiffer child node then [child] else [])

/-- What a thread is doing.  `take`: compare-and-swaps to do, words taken (with the generation before); `back`: words to be given back
after a failure; `held`: all locks taken; `free`: words to be released.
(`req`, `got` in `held` and `free` record which words the thread has taken; the code does not store them.) -/
inductive LPh
  | idle
  | take (req : LockReq) (todo got : List (Nat × Int))
  | back (todo : List (Nat × Int))
  | held (req : LockReq) (got : List (Nat × Int))
  | free (todo : List Nat) (got : List (Nat × Int))
  | panicked

/-- Lock words and threads. -/
structure LSys where
  word : Nat → Nat → Int
  proc : Nat → LPh

/-- Value of the lock word of a node. -/
def LSys.gen (s : LSys) (n : Nat) : Int := s.word (lockBlock n) (lockIdx n)

/-- New value of the lock word of a node. -/
def setWord (word : Nat → Nat → Int) (n : Nat) (g : Int) : Nat → Nat → Int :=
  fun b i => if b = lockBlock n ∧ i = lockIdx n then g else word b i

/-- The steps: a call of `lockNodes2/3`, one step of a thread's current call, a call of `unlockNodes2/3`. -/
inductive LAct
  | lock (p : Nat) (req : LockReq)
  | step (p : Nat)
  | unlock (p : Nat)

/-- One step of one thread; `none` if it is not possible. -/
def lexec (s : LSys) : LAct → Option LSys
  | .lock p req =>
    match s.proc p with
    | .idle =>
      match lockPlan req with
      | none => some s
      | some plan => some ⟨s.word, upd s.proc p (.take req plan [])⟩
    | _ => none
  | .step p =>
    match s.proc p with
    | .take req [] got => some ⟨s.word, upd s.proc p (.held req got)⟩
    | .take req ((n, g) :: todo) got =>
      -- CompareAndSwapInt32
      if s.gen n = g then some ⟨setWord s.word n (g + 1), upd s.proc p (.take req todo (got ++ [(n, g)]))⟩
      else some ⟨s.word, upd s.proc p (.back got)⟩
    | .back [] => some ⟨s.word, upd s.proc p .idle⟩
    | .back ((n, _) :: todo) =>
      -- AddInt32(-1)
      some ⟨setWord s.word n (s.gen n - 1), upd s.proc p (.back todo)⟩
    | .free [] _ => some ⟨s.word, upd s.proc p .idle⟩
    | .free (n :: todo) got =>
      -- AddInt32(1)
      some ⟨setWord s.word n (s.gen n + 1), upd s.proc p
        (if (s.gen n + 1) % 2 ≠ 0 then .panicked else .free todo (got.filter fun x => lockDiffer x.1 n))⟩
    | _ => none
  | .unlock p =>
    match s.proc p with
    | .held req got => some ⟨s.word, upd s.proc p (.free (unlockPlan req) got)⟩
    | _ => none

/-- Reachable states, from unlocked nodes with any generations. -/
inductive LRun : LSys → Prop
  | init (word : Nat → Nat → Int) (h : ∀ b i, word b i % 2 = 0) : LRun ⟨word, fun _ => .idle⟩
  | step {s s' act} : LRun s → lexec s act = some s' → LRun s'

/-- Several steps. -/
inductive LSteps : LSys → LSys → Prop
  | refl (s) : LSteps s s
  | step {s s1 s2 act} : LSteps s s1 → lexec s1 act = some s2 → LSteps s s2

/-! ## Without interruption -/

/-- The compare-and-swaps one after the other, with the roll back after a failure. -/
def runLock (st : St) : List (Nat × Int) → List (Nat × Int) → Bool × St
  | [], _ => (true, st)
  | (n, g) :: todo, got =>
    if st.gen n = g then runLock (st.setGen n (g + 1)) todo (got ++ [(n, g)])
    else (false, got.foldl (fun st x => st.setGen x.1 (st.gen x.1 - 1)) st)

/-- The plan computes `lockNodes2`. -/
theorem runLock_lockNodes2 (st : St) (node : Nat) (ng : Int) (parent : Nat) (pg : Int) :
    st.lockNodes2 node ng parent pg = match lockPlan (.two node ng parent pg) with
      | none => (false, st)
      | some plan => runLock st plan [] := by
  simp only [lockPlan, lockPlan2, St.lockNodes2, St.lockNode, St.casGen]
  by_cases hp : parent = 0
  · simp only [hp, if_true]
    by_cases h : ng % 2 = 1
    · simp [h]
    · simp only [h, if_false, runLock, List.foldl_nil]
  · simp only [hp, if_false]
    by_cases h : ng % 2 = 1 ∨ pg % 2 = 1
    · simp [h]
    · simp only [h, if_false, runLock]
      by_cases h1 : st.gen node = ng
      · simp only [h1, if_true]
        by_cases h2 : lockDiffer parent node = true
        · simp only [h2, if_true, runLock]
          by_cases h3 : (st.setGen node (ng + 1)).gen parent = pg
          · simp [h3]
          · simp [h3]
        · simp [h2, runLock]
      · simp [h1]

/-- The plan computes `lockNodes3`. -/
theorem runLock_lockNodes3 (st : St) (child : Nat) (cg : Int) (node : Nat) (ng : Int) (parent : Nat) (pg : Int) :
    st.lockNodes3 child cg node ng parent pg = match lockPlan (.three child cg node ng parent pg) with
      | none => (false, st)
      | some plan => runLock st plan [] := by
  by_cases hp : parent = 0
  · have := runLock_lockNodes2 st child cg node ng
    simp only [lockPlan] at this
    simp only [lockPlan, St.lockNodes3, hp, if_true]
    exact this
  · simp only [lockPlan, St.lockNodes3, St.casGen, hp, if_false]
    by_cases h : cg % 2 = 1 ∨ ng % 2 = 1 ∨ pg % 2 = 1
    · simp [h]
    · simp only [h, if_false, runLock]
      by_cases h1 : st.gen child = cg
      · simp only [h1, if_true]
        by_cases h2 : lockDiffer node child = true
        · simp only [h2, if_true, List.cons_append, List.nil_append, runLock]
          by_cases h3 : (st.setGen child (cg + 1)).gen node = ng
          · simp only [h3, if_true]
            by_cases h4 : (lockDiffer parent child && lockDiffer parent node) = true
            · simp only [h4, if_true, runLock]
              by_cases h5 : ((st.setGen child (cg + 1)).setGen node (ng + 1)).gen parent = pg
              · simp [h5]
              · simp [h5]
            · simp [h4, runLock]
          · simp [h3]
        · simp only [h2, List.nil_append]
          by_cases h4 : (lockDiffer parent child && lockDiffer parent node) = true
          · simp only [h4, if_true]
            by_cases h5 : (st.setGen child (cg + 1)).gen parent = pg
            · simp [h5, runLock]
            · simp [h5, runLock]
          · simp [h4, runLock]
      · simp [h1]

end Radix
