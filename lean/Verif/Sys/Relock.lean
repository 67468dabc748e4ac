import Verif.Calm
import Verif.Model.Fine
/-!
# Steps that neither read nor write locks
-/
set_option autoImplicit false
namespace Radix

/-- The same state with other lock words. -/
def St.relock (st : St) (L : Nat → Nat → Int) (r : Int) : St := { st with locks := L, rootLock := r }

def Sys.relock (s : Sys) (L : Nat → Nat → Int) (r : Int) : Sys := ⟨s.st.relock L r, s.proc⟩

theorem res_map_bind {α β γ : Type} (x : Res α) (g : α → Res β) (f : β → γ) : (x.bind g).map f = x.bind fun a => (g a).map f := by
  cases x <;> rfl

theorem res_bind_map {α β γ : Type} (x : Res α) (f : α → β) (g : β → Res γ) : (x.map f).bind g = x.bind fun a => g (f a) := by
  cases x <;> rfl

theorem res_map_map {α β γ : Type} (x : Res α) (f : α → β) (g : β → γ) : (x.map f).map g = x.map fun a => g (f a) := by
  cases x <;> rfl

section
variable (st : St) (L : Nat → Nat → Int) (r : Int)

theorem minReservation_relock : (st.relock L r).minReservation = st.minReservation := rfl

theorem nodeData_relock (n : Nat) : (st.relock L r).nodeData n = st.nodeData n := rfl

theorem load_relock (p : Ptr) : (st.relock L r).load p = st.load p := by cases p <;> rfl

theorem store_relock (p : Ptr) (w : Word) : (st.relock L r).store p w = (st.store p w).relock L r := by cases p <;> rfl

theorem cas_relock (p : Ptr) (o w : Word) : (st.relock L r).cas p o w = ((st.cas p o w).1, (st.cas p o w).2.relock L r) := by
  unfold St.cas
  rw [load_relock]
  split
  · rw [store_relock]
  · rfl

theorem blockStep_relock : (st.relock L r).blockStep = st.blockStep.map (·.relock L r) := by
  unfold St.blockStep
  show (if st.baReady then _ else if st.baNext < maxBlockCount then _ else _) = _
  split
  · rfl
  · split <;> rfl

theorem allocFresh_relock (a slots : Nat) : (st.relock L r).allocFresh a slots = (st.allocFresh a slots).map fun x => (x.1, x.2.relock L r) := by
  unfold St.allocFresh
  simp only [blockStep_relock, bind, pure]
  show (if (st.allocs a).nextFree + slots * 8 ≥ blockSize then _ else _) = _
  split
  · rw [res_map_bind, res_bind_map]; rfl
  · rfl

theorem newNode_relock (a slots : Nat) : (st.relock L r).newNode a slots = (st.newNode a slots).map fun x => (x.1, x.2.relock L r) := by
  unfold St.newNode
  rw [allocFresh_relock, minReservation_relock]
  simp only
  show (match (sizesToTry slots).findSome? (fun t => (pickItem st.minReservation ((st.allocs a).recycler t)).map (Prod.mk t)) with
    | some (t, it, rest) => _ | none => _) = _
  generalize (sizesToTry slots).findSome? (fun t => (pickItem st.minReservation ((st.allocs a).recycler t)).map (Prod.mk t)) = x
  cases x <;> rfl

theorem allocNode_relock (a c p : Nat) : (st.relock L r).allocNode a c p = (st.allocNode a c p).map fun x => (x.1, x.2.1, x.2.2.relock L r) := by
  unfold St.allocNode
  rw [newNode_relock]
  simp only [bind, res_bind_map, res_map_bind]
  rfl

theorem allocNodeP_relock (a c : Nat) (p : List UInt8) :
    (st.relock L r).allocNodeP a c p = (st.allocNodeP a c p).map fun x => (x.1, x.2.1, x.2.2.relock L r) := by
  unfold St.allocNodeP
  rw [newNode_relock]
  simp only [bind, res_bind_map, res_map_bind]
  congr 1
  funext x
  rw [nodeData_relock]
  congr 1
  funext d
  split
  · simp only [res_map_bind]; rfl
  · rfl

theorem commit_relock (cm : Commit) : (st.relock L r).commit cm = ((st.commit cm).1, (st.commit cm).2.1, (st.commit cm).2.2.relock L r) := by
  unfold St.commit
  split
  · rw [store_relock]
  · rw [cas_relock]

theorem recycle_relock (a n slots : Nat) : (st.relock L r).recycle a n slots = (st.recycle a n slots).map (·.relock L r) := by
  unfold St.recycle
  simp only
  split
  · rfl
  · split
    · show (if (st.allocs a).counter + 1 ≥ 1000 then _ else _) = _
      split <;> rfl
    · rfl

theorem buildU_relock (a : Nat) (op : UpdOp) (fetched : Key) (m : Bool) (value : Word) :
    buildU (st.relock L r) a op fetched m value = (buildU st a op fetched m value).map fun x => (x.1, x.2.relock L r) := by
  have hmem : ∀ (st' : St) (mm : Mem), ({ st'.relock L r with mem := mm } : St) = ({ st' with mem := mm } : St).relock L r := fun _ _ => rfl
  have hm : ∀ st' : St, (st'.relock L r).mem = st'.mem := fun _ => rfl
  unfold buildU
  cases op.kind <;> simp only [allocNode_relock, allocNodeP_relock, bind, res_bind_map, res_map_bind, pure, Except.pure, hmem, hm]
  case rootLeafUpdate => split <;> first | rfl | (simp only [res_map_bind]; rfl)
  case nodeLeafInsert => split <;> first | rfl | (simp only [res_map_bind]; rfl)
  case nodeLeafUpdate => split <;> first | rfl | (simp only [res_map_bind]; rfl)
  case nodeLeafUpdate256 => split <;> first | rfl | (simp only [res_map_bind]; rfl)
  all_goals rfl

theorem buildD_relock (a : Nat) (op : DelOp) : buildD (st.relock L r) a op = (buildD st a op).map fun x => (x.1, x.2.relock L r) := by
  have hmem : ∀ (st' : St) (mm : Mem), ({ st'.relock L r with mem := mm } : St) = ({ st' with mem := mm } : St).relock L r := fun _ _ => rfl
  have hm : ∀ st' : St, (st'.relock L r).mem = st'.mem := fun _ => rfl
  unfold buildD
  cases op.kind <;> simp only [allocNode_relock, allocNodeP_relock, bind, res_bind_map, res_map_bind, pure, Except.pure, hmem, hm]
  all_goals rfl

theorem unlockBy_released {tl : Tail} (h1 : tl.unl ≠ .root) (h2 : tl.unl.plan = []) (st : St) : st.unlockBy tl.unl = .ok st := by
  cases hu : tl.unl with
  | none => rfl
  | root => exact absurd hu h1
  | two n p => rw [hu] at h2; simp only [Unlock.plan] at h2; split at h2 <;> cases h2
  | three c n p =>
    rw [hu] at h2; simp only [Unlock.plan] at h2
    split at h2
    · split at h2 <;> cases h2
    · cases h2
  | words l =>
    rw [hu] at h2
    simp only [Unlock.plan] at h2
    subst h2; rfl

theorem runTail_relock (a : Nat) {tl : Tail} (h1 : tl.unl ≠ .root) (h2 : tl.unl.plan = []) :
    (st.relock L r).runTail a tl = (st.runTail a tl).map (·.relock L r) := by
  unfold St.runTail
  rw [unlockBy_released h1 h2, unlockBy_released h1 h2]
  simp only [bind, Except.bind]
  cases tl.free with
  | none => rfl
  | some x =>
    obtain ⟨n, slots⟩ := x
    simp only [recycle_relock]
    cases st.recycle a n slots <;> rfl

theorem stepR_relock (ph : RPh) : stepR (st.relock L r) ph = stepR st ph := by
  cases ph <;> rfl

theorem restore_relock : (st.relock L r).restore = st.restore := rfl

/-- The steps of an update that touch no lock. -/
def UPh.plain : UPh → Bool
  | .start _ => true
  | .ptr _ => true
  | _ => false

def DPh.plain : DPh → Bool
  | .start _ => true
  | .ptr _ => true
  | .other _ _ _ => true
  | .cptr _ _ _ _ => true
  | _ => false

theorem stepU_relock {ph : UPh} (h : ph.plain = true) : stepU (st.relock L r) ph = (stepU st ph).map fun x => (x.1, x.2.relock L r) := by
  cases ph with
  | start key =>
    simp only [stepU]
    show (if st.root = 0 ∨ isLeaf st.root = true then _ else _) = _
    split <;> rfl
  | ptr op =>
    simp only [stepU, load_relock]
    split <;> rfl
  | _ => cases h

theorem stepD_relock {ph : DPh} (h : ph.plain = true) : stepD (st.relock L r) ph = (stepD st ph).map fun x => (x.1, x.2.relock L r) := by
  cases ph with
  | start key =>
    simp only [stepD]
    show (if st.root = 0 then _ else if isLeaf st.root = true then _ else _) = _
    split
    · rfl
    · split
      · simp only [bind, pure, Except.pure, res_map_bind]
        congr 1
        funext k
        show (if keyByte st.root = k then _ else _) = _
        split <;> rfl
      · rfl
  | ptr cur =>
    simp only [stepD, load_relock]
    split <;> rfl
  | other cur p plen =>
    simp only [stepD]
    show (if isLeaf (st.mem p) = true then _ else _) = _
    split
    · simp only [bind, pure, Except.pure, res_map_bind]; rfl
    · rfl
  | cptr cur p o plen =>
    simp only [stepD]
    show (if st.mem p ≠ o then _ else _) = _
    split <;> rfl
  | _ => cases h

end

/-- The step touches no lock. -/
def Sys.plain (s : Sys) : Act → Prop
  | .begin _ _ => True
  | .arm _ => True
  | .run a =>
    match s.proc a with
    | .upd ph => ph.plain = true
    | .del ph => ph.plain = true
    | .rd _ => True
    | _ => False
  | .build _ _ => True
  | .commit _ => True
  | .tail a => (s.proc a).released = true
  | .quit _ => True
  | .finish _ => True
  | .flush _ => True
  | .block => True
  | _ => False

theorem set_relock (s : Sys) (L : Nat → Nat → Int) (r : Int) (a : Nat) (st : St) (p : Proc) :
    (s.relock L r).set a (st.relock L r) p = (s.set a st p).relock L r := rfl

/-- Such a step does the same, whatever the locks are. -/
theorem exec_relock (fetch : Word → Key) (s : Sys) (L : Nat → Nat → Int) (r : Int) {act : Act} (h : s.plain act) :
    exec fetch (s.relock L r) act = (exec fetch s act).map fun x => x.map fun y => (y.1.relock L r, y.2) := by
  have hp : (s.relock L r).proc = s.proc := rfl
  cases act with
  | begin a c =>
    simp only [exec, hp]
    split
    · show (if a < s.st.nalloc then _ else _) = _
      split <;> rfl
    · rfl
  | arm a =>
    simp only [exec, hp]
    split <;> rfl
  | run a =>
    simp only [Sys.plain] at h
    simp only [exec, hp]
    cases hpr : s.proc a with
    | upd ph =>
      rw [hpr] at h
      simp only at h
      have e := stepU_relock s.st L r h
      cases ph with
      | start key =>
        simp only [Option.map_some]
        show some (do let x ← stepU (s.st.relock L r) _; _) = _
        rw [e]; simp only [bind, res_bind_map, res_map_bind]; rfl
      | ptr op =>
        simp only [Option.map_some]
        show some (do let x ← stepU (s.st.relock L r) _; _) = _
        rw [e]; simp only [bind, res_bind_map, res_map_bind]; rfl
      | _ => cases h
    | del ph =>
      rw [hpr] at h
      simp only at h
      have e := stepD_relock s.st L r h
      cases ph with
      | start key =>
        simp only [Option.map_some]
        show some (do let x ← stepD (s.st.relock L r) _; _) = _
        rw [e]; simp only [bind, res_bind_map, res_map_bind]; rfl
      | ptr cur =>
        simp only [Option.map_some]
        show some (do let x ← stepD (s.st.relock L r) _; _) = _
        rw [e]; simp only [bind, res_bind_map, res_map_bind]; rfl
      | other cur p plen =>
        simp only [Option.map_some]
        show some (do let x ← stepD (s.st.relock L r) _; _) = _
        rw [e]; simp only [bind, res_bind_map, res_map_bind]; rfl
      | cptr cur p o plen =>
        simp only [Option.map_some]
        show some (do let x ← stepD (s.st.relock L r) _; _) = _
        rw [e]; simp only [bind, res_bind_map, res_map_bind]; rfl
      | _ => cases h
    | rd ph =>
      cases ph with
      | done key res => rfl
      | _ =>
        simp only [Option.map_some]
        show some (do let x ← stepR (s.st.relock L r) _; _) = _
        rw [stepR_relock]; simp only [bind, res_map_bind]; rfl
    | _ => rw [hpr] at h; exact h.elim
  | slip a => exact h.elim
  | publish a v => exact h.elim
  | build a v =>
    simp only [exec, hp]
    split
    · show some (do let x ← buildU (s.st.relock L r) _ _ _ _ _; _) = _
      rw [buildU_relock]; simp only [bind, res_bind_map, Option.map_some, res_map_bind]; rfl
    · split
      · rfl
      · show some (do let x ← buildD (s.st.relock L r) _ _; _) = _
        rw [buildD_relock]; simp only [bind, res_bind_map, Option.map_some, res_map_bind]; rfl
    · rfl
  | commit a =>
    have hc : ∀ cm, (s.relock L r).st.commit cm = ((s.st.commit cm).1, (s.st.commit cm).2.1, (s.st.commit cm).2.2.relock L r) :=
      fun cm => commit_relock s.st L r cm
    simp only [exec, hp]
    split
    · simp only [hc]; rfl
    · simp only [hc]; rfl
    · rfl
  | unlock a => exact h.elim
  | tail a =>
    simp only [Sys.plain, Proc.released] at h
    simp only [exec, hp]
    cases hpr : s.proc a with
    | upd ph =>
      rw [hpr] at h
      cases ph with
      | tail b tl =>
        simp only [Bool.and_eq_true, decide_eq_true_eq, List.isEmpty_iff] at h
        show some (do let x ← (s.st.relock L r).runTail a tl; _) = _
        rw [runTail_relock s.st L r a h.1 h.2]; simp only [bind, res_bind_map, Option.map_some, res_map_bind]; rfl
      | _ => rfl
    | del ph =>
      rw [hpr] at h
      cases ph with
      | tail b tl =>
        simp only [Bool.and_eq_true, decide_eq_true_eq, List.isEmpty_iff] at h
        show some (do let x ← (s.st.relock L r).runTail a tl; _) = _
        rw [runTail_relock s.st L r a h.1 h.2]; simp only [bind, res_bind_map, Option.map_some, res_map_bind]; rfl
      | _ => rfl
    | _ => rfl
  | quit a =>
    simp only [exec, hp]
    split <;> rfl
  | abort a => exact h.elim
  | finish a =>
    simp only [exec, hp]
    split <;> rfl
  | flush a =>
    simp only [exec, hp]
    split
    · show (if a < s.st.nalloc then _ else _) = _
      split <;> rfl
    · rfl
  | block =>
    simp only [exec]
    show some (do let x ← (s.st.relock L r).blockStep; _) = _
    rw [blockStep_relock]; simp only [bind, res_bind_map, Option.map_some, res_map_bind]; rfl

/-- Such a step does not change the locks. -/
theorem exec_plain_locks {fetch : Word → Key} {s s' : Sys} {act : Act} {ev : Ev} (h : s.plain act) (he : exec fetch s act = some (.ok (s', ev))) :
    s'.st.locks = s.st.locks ∧ s'.st.rootLock = s.st.rootLock := by
  have := exec_relock fetch s s.st.locks s.st.rootLock h
  have e : s.relock s.st.locks s.st.rootLock = s := rfl
  rw [e, he] at this
  simp only [Option.map_some, Except.map, Option.some.injEq, Except.ok.injEq, Prod.mk.injEq, and_true] at this
  rw [this]
  exact ⟨rfl, rfl⟩

end Radix
