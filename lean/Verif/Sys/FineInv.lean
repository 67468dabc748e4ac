import Verif.FineSpec
import Verif.Sys.Atom
import Verif.Sys.FineLocks
import Verif.Sys.Rest
/-!
# Every execution with fine steps is an execution with coarse steps
-/
set_option autoImplicit false
set_option linter.unusedSectionVars false
namespace Radix
open T

def Prog.isRet {α : Type} : Prog α → Bool
  | .ret _ => true
  | _ => false

/-- The call of `lockNodes2` or `lockNodes3`. -/
def Proc.req? : Proc → Option LockReq
  | .upd (.lock _ op) => some op.req
  | .del (.lock cur) => some cur.op.req
  | .del (.lock3 cur _ _) => some cur.op.req3
  | _ => none

def Proc.starting : Proc → Bool
  | .upd (.start _) => true
  | .del (.start _) => true
  | _ => false

def Proc.rooting : Proc → Bool
  | .upd (.root _ _) => true
  | .del (.root _ _) => true
  | _ => false

/-- The place fits the phase, and what has been read is what the whole step would have read. -/
def FOK (env : Env) (a : Nat) (S : T → Prop) (p : Proc) : FPh → Prop
  | .none => True
  | .readU P => P.isRet = false ∧ ∃ op l, p = .upd (.body op) ∧ Ends env a (fun st r => r = bodyU st op) P l S
  | .readD P => P.isRet = false ∧ ∃ cur l, p = .del (.body cur) ∧ Ends env a (fun st r => r = bodyD st cur) P l S
  | .take todo got => todo ≠ [] ∧ ∃ req, p.req? = some req ∧ lockPlan req = some (got ++ todo)
  | .merge got P => P.isRet = false ∧ ∃ cur other plen l, p = .del (.lock3 cur other plen) ∧ lockPlan cur.op.req3 = some got ∧
      Ends env a (fun st r => r = mergeRead st cur other plen) P l S
  | .back todo => todo ≠ [] ∧ p.starting = true
  | .root => p.rooting = true
  | .rootBack => p.starting = true

theorem FOK.mono {env : Env} {a : Nat} {S S' : T → Prop} {p : Proc} {ph : FPh} (h : FOK env a S p ph) (hS : ∀ x, S x → S' x) : FOK env a S' p ph := by
  cases ph with
  | readU P => obtain ⟨h0, op, l, h1, h2⟩ := h; exact ⟨h0, op, l, h1, h2.mono hS⟩
  | readD P => obtain ⟨h0, op, l, h1, h2⟩ := h; exact ⟨h0, op, l, h1, h2.mono hS⟩
  | merge got P => obtain ⟨h0, cur, other, plen, l, h1, h2, h3⟩ := h; exact ⟨h0, cur, other, plen, l, h1, h2, h3.mono hS⟩
  | _ => exact h

/-- The steps that stand for an access lead from states with `X` to states with `X`. -/
class FineX (env : Env) (X : Sys → Spec → Prop) : Prop where
  run : ∀ {s σ a s'}, X s σ → Calm s (.run a) → exec env.fetch s (.run a) = some (.ok (s', .none)) →
    (∀ b, (s'.proc b).active = (s.proc b).active) → X s' σ
  slip : ∀ {s σ a s'}, X s σ → exec env.fetch s (.slip a) = some (.ok (s', .none)) → (∀ b, (s'.proc b).active = (s.proc b).active) → X s' σ

/-- The restrictions considered for the coarse system admit the steps that stand for an access, if these are calm. -/
class FineG (G : Sys → Act → Prop) : Prop where
  run : ∀ {s a}, Calm s (.run a) → G s (.run a)
  slip : ∀ {s a}, G s (.slip a)

instance : FineG Calm := ⟨id, trivial⟩

instance {env : Env} {G : Sys → Act → Prop} [FineG G] : FineX env (Run env G) :=
  ⟨fun {_ _ a _} h hc he _ => Run.step (act := .run a) (ev := .none) h trivial (FineG.run hc) he,
    fun {_ _ a _} h he _ => Run.step (act := .slip a) (ev := .none) h trivial FineG.slip he⟩

/-- The relation between the states of the two systems; `X`: what is known about the state of the coarse one. -/
structure FRelX (env : Env) (X : Sys → Spec → Prop) (f : FSys) (s : Sys) (σ : Spec) (t : T) (seen : Nat → T → Prop) : Prop where
  run : X s σ
  inv : Inv env s σ t seen
  sys : f.sys = s.relock f.sys.st.locks f.sys.st.rootLock
  locks : LockRel f.fine f.sys.st s.st
  ok : ∀ a, FOK env a (seen a) (s.proc a) (f.fine a)

/-- The same for executions of the coarse system that `G` restricts. -/
abbrev FRel (env : Env) (G : Sys → Act → Prop) := FRelX env (Run env G)

theorem FRelX.map {env : Env} {X Y : Sys → Spec → Prop} {f : FSys} {s : Sys} {σ : Spec} {t : T} {seen : Nat → T → Prop}
    (h : FRelX env X f s σ t seen) (hY : Y s σ) : FRelX env Y f s σ t seen := ⟨hY, h.inv, h.sys, h.locks, h.ok⟩

theorem active_set {s : Sys} {a : Nat} {st : St} {p : Proc} (h : p.active = (s.proc a).active) (b : Nat) :
    ((s.set a st p).proc b).active = (s.proc b).active := by
  simp only [Sys.set]
  by_cases hb : b = a
  · subst hb; rw [upd_same]; exact h
  · rw [upd_of_ne _ _ hb]

theorem reach_relock {st : St} {L : Nat → Nat → Int} {r : Int} {w : Word} (h : Reach (st.relock L r) w) : Reach st w := by
  induction h with
  | root => exact .root
  | child _ h1 h2 h3 ih => exact .child ih h1 h2 h3

theorem FRelX.safe {env : Env} {X : Sys → Spec → Prop} {f : FSys} {s : Sys} {σ : Spec} {t : T} {seen : Nat → T → Prop} (h : FRelX env X f s σ t seen) {p n : Nat} {w : Word}
    (hs : f.sys.Safe p n w) : s.Safe p n w := by
  rw [h.sys] at hs
  exact hs.imp id (Or.imp id reach_relock)

/-- The step has not panicked, and there is a state of the other system. -/
def Good (env : Env) (X : Sys → Spec → Prop) (σ : Spec) (r : Res FSys) : Prop := ∃ f' s' t' seen', r = .ok f' ∧ FRelX env X f' s' σ t' seen'

theorem FOK.locking {env : Env} {a : Nat} {S : T → Prop} {p : Proc} {ph : FPh} (h : FOK env a S p ph)
    (hh : (∃ x, x ∈ ph.temp) ∨ ph.holdsRoot = true) : p.locking = true := by
  have h1 : p.starting = true → p.locking = true := by
    cases p with
    | upd q => cases q <;> simp [Proc.starting, Proc.locking]
    | del q => cases q <;> simp [Proc.starting, Proc.locking]
    | _ => simp [Proc.starting]
  have h2 : p.rooting = true → p.locking = true := by
    cases p with
    | upd q => cases q <;> simp [Proc.rooting, Proc.locking]
    | del q => cases q <;> simp [Proc.rooting, Proc.locking]
    | _ => simp [Proc.rooting]
  have h3 : ∀ req, p.req? = some req → p.locking = true := by
    intro req
    cases p with
    | upd q => cases q <;> simp [Proc.req?, Proc.locking]
    | del q => cases q <;> simp [Proc.req?, Proc.locking]
    | _ => simp [Proc.req?]
  cases ph with
  | take todo got => obtain ⟨_, req, e, _⟩ := h; exact h3 req e
  | merge got P => obtain ⟨_, cur, other, plen, l, e, _⟩ := h; rw [e]; rfl
  | back todo => exact h1 h.2
  | root => exact h2 h
  | rootBack => exact h1 h
  | _ => rcases hh with ⟨x, hx⟩ | hh <;> simp [FPh.temp, FPh.holdsRoot] at *

theorem Prog.next_relock {α : Type} (st : St) (L : Nat → Nat → Int) (r : Int) (P : Prog α) : P.next (st.relock L r) = P.next st := by
  cases P <;> rfl

section
variable {env : Env} {X : Sys → Spec → Prop} {f : FSys} {s : Sys} {σ : Spec} {t : T} {seen : Nat → T → Prop} {a : Nat}

theorem Ends.step {α : Type} {Q : St → Res α → Prop} {P : Prog α} {l : Option St} {S : T → Prop} (h : Ends env a Q P l S) (hP : P.isRet = false)
    (hw : World env a s S) : Ends env a Q (P.next s.st) (some s.st) S := by
  cases P with
  | ret r => cases hP
  | root k => exact h s S hw fun _ h => h
  | blocks k => exact h s S hw fun _ h => h
  | load x k => exact h s S hw fun _ h => h

theorem Inv.seenRef (hI : Inv env s σ t seen) (hact : (s.proc a).active = true) {raw : Word} {q : Key} (h : SeenRef (seen a) raw q) :
    World env a s (seen a) ∧ ∃ n pfx big ch, Ref (seen a) raw q n pfx big ch := by
  obtain ⟨t', h1, b, n, pfx, big, ch, hat, rfl⟩ := h
  obtain ⟨ch', t1, _, e2, _⟩ := hI.lookAt hact h1 hat
  have h3 := (e2 b).inb.1
  have h4 : 0 < s.st.nblocks := by
    have := s.st.baNext_le
    have := Nat.zero_le (n / blockSlots)
    omega
  have hw : World env a s (seen a) := ⟨⟨σ, t, seen, hI, fun _ => Iff.rfl⟩, hact, h4⟩
  exact ⟨hw, n, pfx, big, ch, Ref.of_seen hw ⟨t', h1, hat⟩⟩

namespace FRelX
variable [FineX env X] (h : FRelX env X f s σ t seen)
include h

theorem proc : f.sys.proc = s.proc := by
  have := congrArg Sys.proc h.sys
  exact this

theorem st : f.sys.st = s.st.relock f.sys.st.locks f.sys.st.rootLock := congrArg Sys.st h.sys

theorem next {α : Type} (P : Prog α) : P.next f.sys.st = P.next s.st := by
  rw [h.st, Prog.next_relock]

theorem root : f.sys.st.root = s.st.root := by rw [h.st]; rfl

theorem contended {b : Nat} (hb : b ≠ a) (hh : (∃ x, x ∈ (f.fine b).temp) ∨ (f.fine b).holdsRoot = true) : s.contended a = true := by
  have hl := (h.ok b).locking hh
  have hlt : b < s.st.nalloc := by
    apply Decidable.byContradiction
    intro hc
    rw [h.inv.mem.off b (by omega)] at hl
    cases hl
  simp only [Sys.contended, List.any_eq_true, List.mem_range, Bool.and_eq_true, decide_eq_true_eq]
  exact ⟨b, hlt, hb, hl⟩

/-- The other system moves, too. -/
theorem go {st' st2 : St} {p' : Proc} {ph : FPh} (hrun : X (s.set a st2 p') σ) (hinv : Inv env (s.set a st2 p') σ t seen)
    (hst : st' = st2.relock st'.locks st'.rootLock) (hl : LockRel (upd f.fine a ph) st' st2) (hok : FOK env a (seen a) p' ph) :
    FRelX env X (f.set a st' p' ph) (s.set a st2 p') σ t seen := by
  refine ⟨hrun, hinv, ?_, hl, ?_⟩
  · simp only [FSys.set, Sys.set, Sys.relock]
    rw [h.proc, ← hst]
  · intro b
    simp only [FSys.set, Sys.set]
    by_cases hb : b = a
    · subst hb; rw [upd_same, upd_same]; exact hok
    · rw [upd_of_ne _ _ hb, upd_of_ne _ _ hb]; exact h.ok b

/-- The other system does not move. -/
theorem stay {st' : St} {ph : FPh} {p : Proc} (hp : p = s.proc a) (hst : st' = s.st.relock st'.locks st'.rootLock)
    (hl : LockRel (upd f.fine a ph) st' s.st) (hok : FOK env a (seen a) (s.proc a) ph) : FRelX env X (f.set a st' p ph) s σ t seen := by
  have e : s.set a s.st (s.proc a) = s := by simp only [Sys.set, upd_self]
  have := h.go (a := a) (st' := st') (st2 := s.st) (p' := s.proc a) (ph := ph) (by rw [e]; exact h.run) (by rw [e]; exact h.inv) hst hl hok
  rw [e] at this
  rw [hp]
  exact this

theorem goU {ph : UPh} (hp : s.proc a = .upd ph) (hcalm : Calm s (.run a)) (h1 : ∀ f op, ph ≠ .held f op) (h2 : ∀ r tl, ph ≠ .tail r tl) :
    ∃ ph' st2, stepU s.st ph = .ok (ph', st2) ∧ ∀ {st' fph}, st' = st2.relock st'.locks st'.rootLock → LockRel (upd f.fine a fph) st' st2 →
      FOK env a (seen a) (.upd ph') fph → FRelX env X (f.set a st' (.upd ph') fph) (s.set a st2 (.upd ph')) σ t seen := by
  obtain ⟨ph', st2, e, hI⟩ := stepU_inv h.inv hp hcalm h1 h2
  refine ⟨ph', st2, e, fun hst hl hok => h.go ?_ hI hst hl hok⟩
  refine FineX.run (env := env) (a := a) h.run hcalm ?_ (active_set (by rw [hp]; rfl))
  simp only [exec, hp]
  cases ph <;> first | exact absurd rfl (h1 _ _) | exact absurd rfl (h2 _ _) | (rw [e]; rfl)

theorem goD {ph : DPh} (hp : s.proc a = .del ph) (hcalm : Calm s (.run a)) (h1 : ∀ cur, ph ≠ .held cur) (h2 : ∀ r tl, ph ≠ .tail r tl)
    (h3 : ∀ key, ph ≠ .miss key) :
    ∃ ph' st2, stepD s.st ph = .ok (ph', st2) ∧ ∀ {st' fph}, st' = st2.relock st'.locks st'.rootLock → LockRel (upd f.fine a fph) st' st2 →
      FOK env a (seen a) (.del ph') fph → FRelX env X (f.set a st' (.del ph') fph) (s.set a st2 (.del ph')) σ t seen := by
  obtain ⟨ph', st2, e, hI⟩ := stepD_inv h.inv hp hcalm h1 h2 h3
  refine ⟨ph', st2, e, fun hst hl hok => h.go ?_ hI hst hl hok⟩
  refine FineX.run (env := env) (a := a) h.run hcalm ?_ (active_set (by rw [hp]; rfl))
  simp only [exec, hp]
  cases ph <;> first | exact absurd rfl (h1 _) | exact absurd rfl (h2 _ _) | exact absurd rfl (h3 _) | (rw [e]; rfl)

theorem goR {ph : RPh} (hp : s.proc a = .rd ph) (h1 : ∀ key res, ph ≠ .done key res) :
    ∃ ph', stepR s.st ph = .ok ph' ∧ FRelX env X (f.set a f.sys.st (.rd ph') (f.fine a)) (s.set a s.st (.rd ph')) σ t seen := by
  obtain ⟨ph', e, hI⟩ := stepR_inv h.inv hp h1
  have hf : f.fine a = .none := by
    have := h.ok a
    rw [hp] at this
    revert this
    cases f.fine a with
    | none => exact fun _ => rfl
    | readU P => rintro ⟨_, _, _, h, _⟩; cases h
    | readD P => rintro ⟨_, _, _, h, _⟩; cases h
    | take todo got => rintro ⟨_, _, h, _⟩; cases h
    | merge got P => rintro ⟨_, _, _, _, _, h, _⟩; cases h
    | back todo => rintro ⟨_, h⟩; cases h
    | root => intro h; cases h
    | rootBack => intro h; cases h
  refine ⟨ph', e, h.go ?_ hI h.st ?_ ?_⟩
  · refine FineX.run (env := env) (a := a) h.run (by simp only [Calm, hp]) ?_ (active_set (by rw [hp]; rfl))
    simp only [exec, hp]
    cases ph <;> first | exact absurd rfl (h1 _ _) | (rw [e]; rfl)
  · exact h.locks.keep rfl rfl
  · rw [hf]; trivial

theorem slipU {ph : UPh} (hp : s.proc a = .upd ph) (hc : s.contended a = true) {r} (hs : Radix.slipU s.st ph = some r) :
    ∃ ph', r = .ok ph' ∧ ∀ {st' fph}, st' = s.st.relock st'.locks st'.rootLock → LockRel (upd f.fine a fph) st' s.st →
      FOK env a (seen a) (.upd ph') fph → FRelX env X (f.set a st' (.upd ph') fph) (s.set a s.st (.upd ph')) σ t seen := by
  obtain ⟨ph', rfl, hI⟩ := slipU_inv h.inv hp hs
  refine ⟨ph', rfl, fun hst hl hok => h.go ?_ hI hst hl hok⟩
  refine FineX.slip (env := env) (a := a) h.run ?_ (active_set (by rw [hp]; rfl))
  simp only [exec, hp, hc, if_true, hs]
  rfl

theorem slipD {ph : DPh} (hp : s.proc a = .del ph) (hc : s.contended a = true) {r} (hs : Radix.slipD s.st ph = some r) :
    ∃ ph', r = .ok ph' ∧ ∀ {st' fph}, st' = s.st.relock st'.locks st'.rootLock → LockRel (upd f.fine a fph) st' s.st →
      FOK env a (seen a) (.del ph') fph → FRelX env X (f.set a st' (.del ph') fph) (s.set a s.st (.del ph')) σ t seen := by
  obtain ⟨ph', rfl, hI⟩ := slipD_inv h.inv hp hs
  refine ⟨ph', rfl, fun hst hl hok => h.go ?_ hI hst hl hok⟩
  refine FineX.slip (env := env) (a := a) h.run ?_ (active_set (by rw [hp]; rfl))
  simp only [exec, hp, hc, if_true, hs]
  rfl

end FRelX
end
end Radix
