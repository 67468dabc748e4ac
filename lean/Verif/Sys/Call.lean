import Verif.Spec
import Verif.ActFacts
/-!
# An operation works on the key it was called with
-/
namespace Radix

def UPh.key? : UPh → Option Key
  | .start key => some key
  | .root key _ => some key
  | .gen op => some op.key
  | .ptr op => some op.key
  | .par op => some op.key
  | .body op => some op.key
  | .lock _ op => some op.key
  | .held _ op => some op.key
  | .tail _ _ => none

def DPh.key? : DPh → Option Key
  | .start key => some key
  | .root key _ => some key
  | .gen cur => some cur.key
  | .ptr cur => some cur.key
  | .par cur => some cur.key
  | .body cur => some cur.key
  | .lock cur => some cur.key
  | .other cur _ _ => some cur.key
  | .cgen cur _ _ _ => some cur.key
  | .cptr cur _ _ _ => some cur.key
  | .lock3 cur _ _ => some cur.key
  | .miss key => some key
  | .held cur => some cur.key
  | .tail _ _ => none

def RPh.key : RPh → Key
  | .start key => key
  | .node key _ _ => key
  | .slot key _ _ _ => key
  | .scan key _ _ _ _ _ => key
  | .done key _ => key

/-- The call an allocator is executing, according to its local variables. -/
def Proc.call? : Proc → Option Call
  | .upd ph => ph.key?.map .update
  | .del ph => ph.key?.map .delete
  | .rd ph => some (.lookup ph.key)
  | .walk => some .walk
  | _ => none

theorem childrenU_key {m op data ph} (h : childrenU m op data = .ok ph) : ph.key? = some op.key := by
  unfold childrenU at h
  simp only [bind, Except.bind, pure, Except.pure] at h
  repeat' split at h
  all_goals first | cases h; done | (injection h with h; subst h; rfl)

theorem bodyU_key {st op ph} (h : bodyU st op = .ok ph) : ph.key? = some op.key := by
  unfold bodyU at h
  simp only [bind, Except.bind, pure, Except.pure] at h
  repeat' split at h
  all_goals first | cases h; done | (injection h with h; subst h; rfl) | exact (childrenU_key h).trans rfl

theorem stepU_key {st ph ph' st'} (h : stepU st ph = .ok (ph', st')) : ph'.key? = ph.key? := by
  cases ph with
  | body op =>
    simp only [stepU, bind, Except.bind, pure, Except.pure] at h
    split at h
    · cases h
    · rename_i ph1 e
      injection h with h; injection h with h _; subst h
      exact bodyU_key e
  | _ =>
    simp only [stepU, bind, Except.bind, pure, Except.pure] at h
    repeat' split at h
    all_goals first | cases h; done | (injection h with h; injection h with h _; subst h; rfl)

theorem childrenD_key {m cur count plen data ph} (h : childrenD m cur count plen data = .ok ph) : ph.key? = some cur.key := by
  unfold childrenD at h
  simp only [bind, Except.bind, pure, Except.pure] at h
  repeat' split at h
  all_goals first | cases h; done | (injection h with h; subst h; rfl)

theorem bodyD_key {st cur ph} (h : bodyD st cur = .ok ph) : ph.key? = some cur.key := by
  unfold bodyD at h
  simp only [bind, Except.bind] at h
  repeat' split at h
  all_goals first | cases h; done | exact (childrenD_key h).trans rfl

theorem stepD_key {st ph ph' st'} (h : stepD st ph = .ok (ph', st')) : ph'.key? = ph.key? := by
  cases ph with
  | body op =>
    simp only [stepD, bind, Except.bind, pure, Except.pure] at h
    split at h
    · cases h
    · rename_i ph1 e
      injection h with h; injection h with h _; subst h
      exact bodyD_key e
  | _ =>
    simp only [stepD, bind, Except.bind, pure, Except.pure] at h
    repeat' split at h
    all_goals first | cases h; done | (injection h with h; injection h with h _; subst h; rfl)

theorem stepR_key {st ph ph'} (h : stepR st ph = .ok ph') : ph'.key = ph.key := by
  cases ph
  all_goals
    simp only [stepR, bind, Except.bind, pure, Except.pure] at h
    repeat' split at h
    all_goals first | cases h; done | (injection h with h; subst h; rfl)

/-- Operations work on the key they were called with. -/
def CallInv (s : Sys) (σ : Spec) : Prop := ∀ a c, (s.proc a).call? = some c → σ.call a = c

theorem CallInv.set {s : Sys} {σ : Spec} {a : Nat} {st' : St} {p' : Proc} {σ' : Spec} (h : CallInv s σ) (hc : σ'.call = σ.call)
    (hp : ∀ c, p'.call? = some c → (s.proc a).call? = some c) : CallInv (s.set a st' p') σ' := by
  intro b c hb
  rw [hc]
  by_cases e : b = a
  · subst e
    exact h b c (hp c (by simpa [Sys.set] using hb))
  · refine h b c ?_
    simpa [Sys.set, upd_of_ne _ _ e] using hb

theorem exec_call {fetch : Word → Key} {s s' : Sys} {σ : Spec} {act : Act} {ev : Ev} (hI : CallInv s σ)
    (h : exec fetch s act = some (.ok (s', ev))) : CallInv s' (σ.next ev) := by
  have hnext : ∀ b : Bool, ∀ k v, (σ.next (if b then Ev.put k v else .none)).call = σ.call := by intro b k v; cases b <;> rfl
  have hnext' : ∀ b : Bool, ∀ k, (σ.next (if b then Ev.del k else .none)).call = σ.call := by intro b k; cases b <;> rfl
  cases act with
  | arm a =>
    simp only [exec] at h
    split at h
    · rename_i e c hp
      injection h with h; injection h with h; injection h with h h'; subst h h'
      intro b c' hb
      by_cases e : b = a
      · subst e
        simp only [Spec.next, upd_same]
        simp only [Sys.set, upd_same] at hb
        cases c <;> simpa [Call.start, Proc.call?, UPh.key?, DPh.key?, RPh.key] using hb
      · simp only [Spec.next, upd_of_ne _ _ e]
        refine hI b c' ?_
        simpa [Sys.set, upd_of_ne _ _ e] using hb
    · cases h
  | run a =>
    simp only [exec] at h
    split at h
    case h_3 ph _ _ hp =>
      cases hs : stepU s.st ph with
      | error e => simp [hs, bind, Except.bind] at h
      | ok r =>
        obtain ⟨ph', st'⟩ := r
        simp only [hs, bind, Except.bind, pure, Except.pure] at h
        injection h with h; injection h with h; injection h with h h'; subst h h'
        refine hI.set rfl fun c hc => ?_
        rw [hp]
        simp only [Proc.call?, stepU_key hs] at hc ⊢
        exact hc
    case h_7 ph _ _ _ hp =>
      cases hs : stepD s.st ph with
      | error e => simp [hs, bind, Except.bind] at h
      | ok r =>
        obtain ⟨ph', st'⟩ := r
        simp only [hs, bind, Except.bind, pure, Except.pure] at h
        injection h with h; injection h with h; injection h with h h'; subst h h'
        refine hI.set rfl fun c hc => ?_
        rw [hp]
        simp only [Proc.call?, stepD_key hs] at hc ⊢
        exact hc
    case h_9 ph _ hp =>
      cases hs : stepR s.st ph with
      | error e => simp [hs, bind, Except.bind] at h
      | ok ph' =>
        simp only [hs, bind, Except.bind, pure, Except.pure] at h
        injection h with h; injection h with h; injection h with h h'; subst h h'
        refine hI.set rfl fun c hc => ?_
        rw [hp]
        simp only [Proc.call?, stepR_key hs] at hc ⊢
        exact hc
    all_goals cases h
  | slip a =>
    obtain ⟨rfl, _, ⟨ph, ph', hp, hs, rfl⟩ | ⟨ph, ph', hp, hs, rfl⟩⟩ := exec_slip_ok h
    · refine hI.set rfl fun c hc => ?_
      rw [hp]
      rcases slipU_key hs with ⟨_, _, rfl, rfl⟩ | ⟨_, rfl, _, rfl⟩ | ⟨_, rfl, _, _, ⟨_, rfl⟩ | ⟨_, rfl⟩⟩ | ⟨_, _, rfl, rfl⟩ <;> exact hc
    · refine hI.set rfl fun c hc => ?_
      rw [hp]
      rcases slipD_key hs with ⟨_, _, rfl, rfl⟩ | ⟨_, rfl, _, rfl⟩ | ⟨_, rfl, _, _, ⟨_, rfl⟩ | ⟨_, rfl⟩⟩ | ⟨_, rfl, rfl⟩ |
        ⟨_, _, _, _, rfl, _, rfl⟩ | ⟨_, _, _, rfl, rfl⟩ <;> exact hc
  | unlock a =>
    obtain ⟨rfl, ⟨b, tl, u, st', hp, hs, rfl⟩ | ⟨b, tl, u, st', hp, hs, rfl⟩⟩ := exec_unlock_ok h <;>
      exact hI.set rfl fun c hc => by simp [Proc.call?, UPh.key?, DPh.key?] at hc
  | block =>
    simp only [exec] at h
    cases hs : s.st.blockStep with
    | error e => simp [hs, bind, Except.bind] at h
    | ok st' =>
      simp only [hs, bind, Except.bind, pure, Except.pure] at h
      injection h with h; injection h with h; injection h with h h'; subst h h'
      exact hI
  | _ =>
    simp only [exec, bind, Except.bind, pure, Except.pure] at h
    repeat' split at h
    all_goals first
      | cases h; done
      | (injection h with h; injection h with h; injection h with h h'; subst h h'
         refine hI.set ?_ ?_
         · first | rfl | exact hnext _ _ _ | exact hnext' _ _
         · intro c hc; first | (simp [Proc.call?, UPh.key?, DPh.key?] at hc; done))
      | (injection h with h; split at h
         · cases h
         · injection h with h; injection h with h h'; subst h h'
           refine hI.set ?_ ?_
           · first | rfl | exact hnext _ _ _ | exact hnext' _ _
           · intro c hc; simp [Proc.call?, UPh.key?, DPh.key?] at hc)

theorem Run.call {env : Env} {G : Sys → Act → Prop} {s : Sys} {σ : Spec} (h : Run env G s σ) : CallInv s σ := by
  induction h with
  | init n => intro a c h; cases h
  | reload _ _ _ => intro a c h; cases h
  | step _ _ _ he ih => exact exec_call ih he

end Radix
