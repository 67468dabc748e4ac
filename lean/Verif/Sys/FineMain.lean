import Verif.Sys.FineStep
import Verif.Sys.Facts
/-!
# Every execution with fine steps is an execution with coarse steps: all steps
-/
set_option autoImplicit false
set_option linter.unusedSectionVars false
namespace Radix
open T

section
variable {env : Env} {X : Sys → Spec → Prop} [FineX env X] {f : FSys} {s : Sys} {σ : Spec} {t : T} {seen : Nat → T → Prop} {a : Nat}

theorem upd_fine_none (hf : f.fine a = .none) : upd f.fine a .none = f.fine := by rw [← hf, upd_self]

/-- One step of a prepare or a lookup. -/
theorem FRelX.fstep (h : FRelX env X f s σ t seen) (hcalm : Calm s (.run a) ∨ FCalm f (.step a)) {r} (hs : Radix.fstep env.fetch f a = some r) : Good env X σ r := by
  unfold Radix.fstep at hs
  have hpr := h.proc
  have hok := h.ok a
  split at hs
  · rename_i hf hp
    rw [hpr] at hp
    split at hs
    · rename_i hr; cases hs; exact h.rootTaken hr (by rw [hp]; rfl) (by rw [hf]; rfl)
    · rename_i hr; cases hs; exact h.rootU hp hf hr
  · rename_i hf hp
    rw [hpr] at hp
    split at hs
    · rename_i hr; cases hs; exact h.rootTaken hr (by rw [hp]; rfl) (by rw [hf]; rfl)
    · rename_i hr; cases hs; exact h.rootD hp hf hr
  · rename_i hf hp
    rw [hpr] at hp
    split at hs
    · rename_i hr; cases hs; exact (h.rootCmpU hp hf).1 hr
    · rename_i hr; cases hs; exact (h.rootCmpU hp hf).2 hr
  · rename_i hf hp
    rw [hpr] at hp
    split at hs
    · rename_i hr; cases hs; exact (h.rootCmpD hp hf).1 hr
    · rename_i hr; cases hs; exact (h.rootCmpD hp hf).2 hr
  · rename_i hf
    cases hs
    exact h.rootGiven hf
  · rename_i op hf hp
    rw [hpr] at hp
    cases hs
    obtain ⟨_, q, n, pfx, big, ch, h1, h2, h3⟩ := h.worldU hp
    exact h.readU hp rfl (ends_bodyU (l := none) h1 h2 h3) (by rw [hf]; rfl) (by rw [hf]; rfl)
  · rename_i P hf
    cases hs
    rw [hf] at hok
    obtain ⟨h1, op, l, h2, h3⟩ := hok
    exact h.readU h2 h1 h3 (by rw [hf]; rfl) (by rw [hf]; rfl)
  · rename_i cur hf hp
    rw [hpr] at hp
    cases hs
    obtain ⟨_, q, n, pfx, big, ch, h1, h2⟩ := h.worldD hp
    exact h.readD hp rfl (ends_bodyD (l := none) h1 h2) (by rw [hf]; rfl) (by rw [hf]; rfl)
  · rename_i P hf
    cases hs
    rw [hf] at hok
    obtain ⟨h1, op, l, h2, h3⟩ := hok
    exact h.readD h2 h1 h3 (by rw [hf]; rfl) (by rw [hf]; rfl)
  · rename_i found op hf hp
    rw [hpr] at hp
    cases hs
    unfold FSys.casFirst
    cases hpl : lockPlan op.req with
    | none => exact h.refuse (h.callU hp) hpl hf
    | some plan => exact h.casU hp (lockPlan_ne hpl) (by rw [hpl]; rfl) (by rw [hf]; rfl) (by rw [hf]; rfl)
  · rename_i todo got found op hf hp
    rw [hpr] at hp
    cases hs
    rw [hf, hp] at hok
    obtain ⟨h1, req, h2, h3⟩ := hok
    cases h2
    exact h.casU hp h1 h3 (by rw [hf]; rfl) (by rw [hf]; rfl)
  · rename_i cur hf hp
    rw [hpr] at hp
    cases hs
    unfold FSys.casFirst
    cases hpl : lockPlan cur.op.req with
    | none => exact h.refuse (h.callD hp) hpl hf
    | some plan => exact h.casD hp (lockPlan_ne hpl) (by rw [hpl]; rfl) (by rw [hf]; rfl) (by rw [hf]; rfl)
  · rename_i todo got cur hf hp
    rw [hpr] at hp
    cases hs
    rw [hf, hp] at hok
    obtain ⟨h1, req, h2, h3⟩ := hok
    cases h2
    exact h.casD hp h1 h3 (by rw [hf]; rfl) (by rw [hf]; rfl)
  · rename_i cur other plen hf hp
    rw [hpr] at hp
    cases hs
    unfold FSys.casFirst
    cases hpl : lockPlan cur.op.req3 with
    | none => exact h.refuse (h.callM hp) hpl hf
    | some plan => exact h.casM hp (lockPlan_ne hpl) (by rw [hpl]; rfl) (by rw [hf]; rfl) (by rw [hf]; rfl)
  · rename_i todo got cur other plen hf hp
    rw [hpr] at hp
    cases hs
    rw [hf, hp] at hok
    obtain ⟨h1, req, h2, h3⟩ := hok
    cases h2
    exact h.casM hp h1 h3 (by rw [hf]; rfl) (by rw [hf]; rfl)
  · rename_i got P hf
    cases hs
    rw [hf] at hok
    obtain ⟨h1, cur, other, plen, l, h2, h3, h4⟩ := hok
    refine h.readM h2 h1 h4 hf h3 (hcalm.imp id fun hcalm => ?_)
    simp only [FCalm, hpr, h2] at hcalm
    exact hcalm ⟨got, P, hf⟩
  · rename_i n g todo hf
    cases hs
    rw [hf] at hok
    exact h.giveBack hf hok.2
  · rename_i hf n1 n2 n3 n4 n5 n6 n7
    cases hp : s.proc a with
    | upd ph =>
      have hpf : f.sys.proc a = .upd ph := by rw [hpr, hp]
      have key : (ph.plain = true ∨ (∃ op, ph = .gen op) ∨ ∃ op, ph = .par op) → Good env X σ r := by
        intro hk
        have := h.accessU hp hf hcalm hk
        have e : some r = some (do let r ← stepU f.sys.st ph; return f.set a r.2 (.upd r.1) .none) := by
          rw [← hs]
          simp only [exec, hpf]
          rcases hk with hk | ⟨op, rfl⟩ | ⟨op, rfl⟩
          · cases ph <;> first | (cases hk; done) | skip
            all_goals (simp only [Option.map_some]; generalize stepU f.sys.st _ = x; cases x <;> simp [bind, Except.bind, pure, Except.pure, FSys.set, upd_fine_none hf])
          all_goals (simp only [Option.map_some]; generalize stepU f.sys.st _ = x; cases x <;> simp [bind, Except.bind, pure, Except.pure, FSys.set, upd_fine_none hf])
        rw [Option.some.inj e]
        exact this
      cases ph with
      | start k => exact key (.inl rfl)
      | ptr op => exact key (.inl rfl)
      | gen op => exact key (.inr (.inl ⟨_, rfl⟩))
      | par op => exact key (.inr (.inr ⟨_, rfl⟩))
      | root k r => exact (n1 _ _ hpf).elim
      | body op => exact (n3 _ hpf).elim
      | lock fd op => exact (n5 _ _ hpf).elim
      | held fd op => simp only [exec, hpf] at hs; cases hs
      | tail r tl => simp only [exec, hpf] at hs; cases hs
    | del ph =>
      have hpf : f.sys.proc a = .del ph := by rw [hpr, hp]
      have key : (ph.plain = true ∨ (∃ op, ph = .gen op) ∨ (∃ op, ph = .par op) ∨ ∃ cur p o plen, ph = .cgen cur p o plen) → Good env X σ r := by
        intro hk
        have := h.accessD hp hf hcalm hk
        have e : some r = some (do let r ← stepD f.sys.st ph; return f.set a r.2 (.del r.1) .none) := by
          rw [← hs]
          simp only [exec, hpf]
          rcases hk with hk | ⟨op, rfl⟩ | ⟨op, rfl⟩ | ⟨cur, p, o, plen, rfl⟩
          · cases ph <;> first | (cases hk; done) | skip
            all_goals (simp only [Option.map_some]; generalize stepD f.sys.st _ = x; cases x <;> simp [bind, Except.bind, pure, Except.pure, FSys.set, upd_fine_none hf])
          all_goals (simp only [Option.map_some]; generalize stepD f.sys.st _ = x; cases x <;> simp [bind, Except.bind, pure, Except.pure, FSys.set, upd_fine_none hf])
        rw [Option.some.inj e]
        exact this
      cases ph with
      | start k => exact key (.inl rfl)
      | ptr op => exact key (.inl rfl)
      | other c p pl => exact key (.inl rfl)
      | cptr c p o pl => exact key (.inl rfl)
      | gen op => exact key (.inr (.inl ⟨_, rfl⟩))
      | par op => exact key (.inr (.inr (.inl ⟨_, rfl⟩)))
      | cgen c p o pl => exact key (.inr (.inr (.inr ⟨_, _, _, _, rfl⟩)))
      | root k r => exact (n2 _ _ hpf).elim
      | body op => exact (n4 _ hpf).elim
      | lock op => exact (n6 _ hpf).elim
      | lock3 c o pl => exact (n7 _ _ _ hpf).elim
      | held op => simp only [exec, hpf] at hs; cases hs
      | miss op => simp only [exec, hpf] at hs; cases hs
      | tail r tl => simp only [exec, hpf] at hs; cases hs
    | rd ph =>
      have hpf : f.sys.proc a = .rd ph := by rw [hpr, hp]
      by_cases hd : ∀ key res, ph ≠ .done key res
      · obtain ⟨ph', e, hgo⟩ := h.goR hp hd
        have e' : stepR f.sys.st ph = .ok ph' := by rw [h.st, stepR_relock, e]
        have : some r = some (.ok (f.set a f.sys.st (.rd ph') (f.fine a))) := by
          rw [← hs]
          simp only [exec, hpf]
          cases ph <;> first | exact absurd rfl (hd _ _) | (simp only [Option.map_some]; rw [e']; simp [bind, Except.bind, pure, Except.pure, FSys.set, upd_self])
        rw [Option.some.inj this]
        exact ⟨_, _, t, seen, rfl, hgo⟩
      · cases ph with
        | done k r => simp only [exec, hpf] at hs; cases hs
        | _ => exact absurd (by simp) hd
    | idle => rw [← hpr] at hp; simp only [exec, hp] at hs; cases hs
    | arm e c => rw [← hpr] at hp; simp only [exec, hp] at hs; cases hs
    | walk => rw [← hpr] at hp; simp only [exec, hp] at hs; cases hs
    | updB o v c => rw [← hpr] at hp; simp only [exec, hp] at hs; cases hs
    | delB o c => rw [← hpr] at hp; simp only [exec, hp] at hs; cases hs
  · cases hs

/-! ## The other steps -/

theorem liveSlot_relock {st : St} {L : Nat → Nat → Int} {r : Int} {p : Nat} (h : LiveSlot (st.relock L r) p) : LiveSlot st p := by
  obtain ⟨w, h1, h2, h3, h4⟩ := h
  exact ⟨w, reach_relock h1, h2, h3, h4⟩

theorem calm_relock {L : Nat → Nat → Int} {r : Int} {act : FAct} (hs : ∀ a, act ≠ .step a) (h : Calm (s.relock L r) act.act) : Calm s act.act := by
  cases act with
  | begin a c => cases c <;> exact h
  | step a => exact absurd rfl (hs a)
  | commit a =>
    simp only [FAct.act, Calm] at h ⊢
    rw [show (s.relock L r).proc = s.proc from rfl] at h
    split
    · rename_i cur cm hp
      rw [hp] at h
      simp only at h
      intro h1 h2
      obtain ⟨p, h3, h4, h5⟩ := h h1 (by rw [show (s.relock L r).st = s.st.relock L r from rfl, load_relock]; exact h2)
      exact ⟨p, h3, liveSlot_relock h4, h5⟩
    · trivial
  | quit a => exact h
  | _ => trivial

/-- The phases in which an operation is not searching. -/
def Proc.resting : Proc → Bool
  | .idle | .arm _ _ | .walk | .updB _ _ _ | .delB _ _ => true
  | .upd (.held _ _) | .upd (.tail _ _) | .del (.miss _) | .del (.held _) | .del (.tail _ _) | .rd (.done _ _) => true
  | _ => false

theorem FOK.resting {S : T → Prop} {p : Proc} {ph : FPh} (h : FOK env a S p ph) (hp : p.resting = true) : ph = .none := by
  cases ph with
  | none => rfl
  | readU P => obtain ⟨_, _, _, rfl, _⟩ := h; cases hp
  | readD P => obtain ⟨_, _, _, rfl, _⟩ := h; cases hp
  | take todo got =>
    obtain ⟨_, req, h, _⟩ := h
    cases p with
    | upd q => cases q <;> first | (cases hp; done) | (cases h; done)
    | del q => cases q <;> first | (cases hp; done) | (cases h; done)
    | _ => cases h <;> cases hp
  | merge got P => obtain ⟨_, _, _, _, _, rfl, _⟩ := h; cases hp
  | back todo =>
    have h := h.2
    cases p with
    | upd q => cases q <;> first | (cases hp; done) | (cases h; done)
    | del q => cases q <;> first | (cases hp; done) | (cases h; done)
    | _ => cases h <;> cases hp
  | root =>
    have h : p.rooting = true := h
    cases p with
    | upd q => cases q <;> first | (cases hp; done) | (cases h; done)
    | del q => cases q <;> first | (cases hp; done) | (cases h; done)
    | _ => cases h <;> cases hp
  | rootBack =>
    have h : p.starting = true := h
    cases p with
    | upd q => cases q <;> first | (cases hp; done) | (cases h; done)
    | del q => cases q <;> first | (cases hp; done) | (cases h; done)
    | _ => cases h <;> cases hp

/-- The steps other than those of a search. -/
theorem exec_resting {fetch : Word → Key} {s' : Sys} {act : FAct} {ev : Ev} (hn : ∀ a, act ≠ .step a)
    (h : exec fetch s act.act = some (.ok (s', ev))) :
    (s'.proc = s.proc ∧ ev = .none) ∨ ∃ a p', s'.proc = upd s.proc a p' ∧ (s.proc a).resting = true ∧ ∀ b c, ev = .begun b c → b = a := by
  cases act with
  | step a => exact absurd rfl (hn a)
  | begin a c =>
    simp only [FAct.act, exec] at h
    split at h
    · rename_i hp
      split at h
      · cases h; exact .inr ⟨a, _, rfl, by rw [hp]; rfl, fun _ _ h => by cases h⟩
      · cases h
    · cases h
  | arm a =>
    simp only [FAct.act, exec] at h
    split at h
    · rename_i hp
      cases h; exact .inr ⟨a, _, rfl, by rw [hp]; rfl, fun _ _ h => by cases h; rfl⟩
    · cases h
  | build a v =>
    simp only [FAct.act, exec] at h
    split at h
    · rename_i hp
      generalize buildU s.st a _ _ _ _ = x at h
      cases x with
      | error e => cases h
      | ok x => cases h; exact .inr ⟨a, _, rfl, by rw [hp]; rfl, fun _ _ h => by cases h⟩
    · rename_i hp
      split at h
      · cases h
      generalize buildD s.st a _ = x at h
      cases x with
      | error e => cases h
      | ok x => cases h; exact .inr ⟨a, _, rfl, by rw [hp]; rfl, fun _ _ h => by cases h⟩
    · cases h
  | commit a =>
    simp only [FAct.act, exec] at h
    split at h
    · rename_i hp
      cases h; exact .inr ⟨a, _, rfl, by rw [hp]; rfl, fun _ _ h => by split at h <;> cases h⟩
    · rename_i hp
      cases h; exact .inr ⟨a, _, rfl, by rw [hp]; rfl, fun _ _ h => by split at h <;> cases h⟩
    · cases h
  | unlock a =>
    obtain ⟨rfl, ⟨b, tl, u, st', hp, _, rfl⟩ | ⟨b, tl, u, st', hp, _, rfl⟩⟩ := exec_unlock_ok h
    · exact .inr ⟨a, _, rfl, by rw [hp]; rfl, fun _ _ h => by cases h⟩
    · exact .inr ⟨a, _, rfl, by rw [hp]; rfl, fun _ _ h => by cases h⟩
  | tail a =>
    simp only [FAct.act, exec] at h
    split at h
    · rename_i b tl hp
      cases e : s.st.runTail a tl with
      | error e' => rw [e] at h; cases h
      | ok x => rw [e] at h; cases h; exact .inr ⟨a, _, rfl, by rw [hp]; rfl, fun _ _ h => by cases h⟩
    · rename_i b tl hp
      cases e : s.st.runTail a tl with
      | error e' => rw [e] at h; cases h
      | ok x => rw [e] at h; cases h; exact .inr ⟨a, _, rfl, by rw [hp]; rfl, fun _ _ h => by cases h⟩
    · cases h
  | quit a =>
    simp only [FAct.act, exec] at h
    split at h
    · rename_i hp
      cases h; exact .inr ⟨a, _, rfl, by rw [hp]; rfl, fun _ _ h => by cases h⟩
    · rename_i hp
      cases h; exact .inr ⟨a, _, rfl, by rw [hp]; rfl, fun _ _ h => by cases h⟩
    · cases h
  | finish a =>
    simp only [FAct.act, exec] at h
    split at h
    · rename_i hp
      cases h; exact .inr ⟨a, _, rfl, by rw [hp]; rfl, fun _ _ h => by cases h⟩
    · rename_i hp
      cases h; exact .inr ⟨a, _, rfl, by rw [hp]; rfl, fun _ _ h => by cases h⟩
    · rename_i hp
      cases h; exact .inr ⟨a, _, rfl, by rw [hp]; rfl, fun _ _ h => by cases h⟩
    · cases h
  | flush a =>
    simp only [FAct.act, exec] at h
    split at h
    · rename_i hp
      split at h
      · cases h; exact .inr ⟨a, _, rfl, by rw [hp]; rfl, fun _ _ h => by cases h⟩
      · cases h
    · cases h
  | block =>
    simp only [FAct.act, exec] at h
    cases e : s.st.blockStep with
    | error e' => rw [e] at h; cases h
    | ok x => rw [e] at h; cases h; exact .inl ⟨rfl, rfl⟩

/-- The result of a step. -/
def Done (env : Env) (X : Sys → Spec → Prop) (σ : Spec) (act : Act) (s : Sys) (r : Res (FSys × Ev)) : Prop :=
  (∃ f' ev s' t' seen', r = .ok (f', ev) ∧ FRelX env X f' s' (σ.next ev) t' seen') ∨ ∃ e, r = .error e ∧ Blame s act e

/-- Both systems make the step. -/
theorem FRelX.both (h : FRelX env X f s σ t seen) {Y : Sys → Spec → Prop} {act : FAct} (hn : ∀ a, act ≠ .step a) (hall : env.Allowed s act.act) (hcalm : Calm s act.act)
    {s' : Sys} {ev : Ev} (hY : Y s' (σ.next ev)) (he : exec env.fetch s act.act = some (.ok (s', ev))) {st' : St}
    (hst : st' = s'.st.relock st'.locks st'.rootLock)
    (hl : LockRel f.fine st' s'.st) : ∃ t' seen', FRelX env Y ⟨⟨st', s'.proc⟩, f.fine⟩ s' (σ.next ev) t' seen' := by
  rcases exec_inv h.inv hall hcalm he with ⟨s2, ev2, t', seen', e, hI, hseen, _⟩ | ⟨e, h1, _⟩
  · cases e
    refine ⟨t', seen', hY, hI, by simp only [Sys.relock]; rw [← hst], hl, fun b => ?_⟩
    simp only
    rcases exec_resting hn he with ⟨h1, rfl⟩ | ⟨a, p', h1, h2, h3⟩
    · rw [h1]
      exact (h.ok b).mono fun x hx => hseen.1 b x (fun c h => by cases h) hx
    · rw [h1]
      by_cases hb : b = a
      · subst hb
        rw [(h.ok b).resting h2]
        trivial
      · rw [upd_of_ne _ _ hb]
        exact (h.ok b).mono fun x hx => hseen.1 b x (fun c h => hb (h3 b c h)) hx
  · cases h1

theorem FRelX.plainAct (h : FRelX env X f s σ t seen) {Y : Sys → Spec → Prop} {act : FAct} (hpl : s.plain act.act) (hn : ∀ a, act ≠ .step a) (hall : env.Allowed s act.act)
    (hcalm : Calm s act.act) {r} (hs : exec env.fetch f.sys act.act = some r)
    (hY : ∀ f' s' ev, exec env.fetch s act.act = some (.ok (s', ev)) → r = .ok (f', ev) → f'.proc = s'.proc → Y s' (σ.next ev)) :
    Done env Y σ act.act s (do let r ← r; return (⟨r.1, f.fine⟩, r.2)) := by
  have e := exec_relock env.fetch s f.sys.st.locks f.sys.st.rootLock hpl
  rw [← h.sys, hs] at e
  cases hx : exec env.fetch s act.act with
  | none => rw [hx] at e; cases e
  | some x =>
    rw [hx] at e
    cases x with
    | error e' =>
      cases e
      rcases exec_inv h.inv hall hcalm hx with ⟨_, _, _, _, e, _⟩ | ⟨e, h1, h2⟩
      · cases e
      · cases h1; exact .inr ⟨_, rfl, h2⟩
    | ok x =>
      obtain ⟨s', ev⟩ := x
      cases e
      obtain ⟨e1, e2⟩ := exec_plain_locks hpl hx
      obtain ⟨t', seen', hF⟩ := h.both hn hall hcalm (hY _ _ _ hx rfl rfl) hx (st' := s'.st.relock f.sys.st.locks f.sys.st.rootLock) rfl
        (h.locks.congr rfl rfl e1 e2)
      exact .inl ⟨_, _, _, t', seen', rfl, hF⟩

theorem unlockOne_isSome (st st0 : St) (u : Unlock) : (st.unlockOne u).isSome = (st0.unlockOne u).isSome := by
  unfold St.unlockOne
  split
  · rfl
  · split <;> rfl

theorem unlockOne_rel (h : FRelX env X f s σ t seen) {u u' : Unlock} {st0' : St} (hu : s.st.unlockOne u = some (.ok (u', st0')))
    (hr : u = .root → s.st.rootLock = 1) : ∃ st', f.sys.st.unlockOne u = some (.ok (u', st')) ∧ st' = st0'.relock st'.locks st'.rootLock ∧
      LockRel f.fine st' st0' := by
  rcases unlockOne_ok hu with ⟨rfl, rfl, rfl⟩ | ⟨n, l, hpl, rfl, hne, hg, rfl⟩
  · refine ⟨f.sys.st.unlockRoot, rfl, ?_, ?_⟩
    · conv => lhs; rw [h.st]
      rfl
    · have e := h.locks.root
      have h1 := hr rfl
      rcases e with ⟨_, _, _, h2, _⟩ | ⟨h2, h3⟩
      · omega
      · have := h.locks.temp_congr (a := 0) (ph := f.fine 0) (st' := f.sys.st.unlockRoot) (st0' := s.st.unlockRoot) rfl rfl rfl
          (.inr ⟨by rw [upd_self]; exact h2, by simp only [St.unlockRoot]; rw [h3]⟩)
        rw [upd_self] at this
        exact this
  · obtain ⟨e1, _⟩ := h.locks.freeOdd (n := n) (by omega)
    refine ⟨f.sys.st.setGen n (f.sys.st.gen n + 1), ?_, ?_, h.locks.release (by omega)⟩
    · have e2 : f.sys.st.unlockNode n = .ok (f.sys.st.setGen n (f.sys.st.gen n + 1)) := by
        rw [unlockNode_spec (by omega), setGen_bump]
      unfold St.unlockOne
      split
      · exact absurd rfl hne
      · rw [hpl]
        simp only
        rw [e2]
        rfl
    · exact h.setGenSt n _

theorem FRelX.unlockAct (h : FRelX env X f s σ t seen) {Y : Sys → Spec → Prop} {r} (hs : exec env.fetch f.sys (.unlock a) = some r)
    (hY : ∀ f' s' ev, exec env.fetch s (.unlock a) = some (.ok (s', ev)) → r = .ok (f', ev) → f'.proc = s'.proc → Y s' (σ.next ev)) :
    Done env Y σ (.unlock a) s (do let r ← r; return (⟨r.1, f.fine⟩, r.2)) := by
  have hroot : (s.proc a).unl = .root → s.st.rootLock = 1 := by
    intro e
    rcases h.inv.locks.root with ⟨_, h1⟩ | ⟨h1, _⟩
    · exact absurd e (h1 a)
    · exact h1
  cases hx : exec env.fetch s (.unlock a) with
  | none =>
    exfalso
    simp only [exec] at hx hs
    rw [h.proc] at hs
    split at hx
    · rename_i b tl hp
      rw [hp] at hs
      simp only at hs
      have := unlockOne_isSome f.sys.st s.st tl.unl
      rw [Option.map_eq_none_iff.1 hx] at this
      cases e : f.sys.st.unlockOne tl.unl with
      | none => rw [e] at hs; cases hs
      | some y => rw [e] at this; cases this
    · rename_i b tl hp
      rw [hp] at hs
      simp only at hs
      have := unlockOne_isSome f.sys.st s.st tl.unl
      rw [Option.map_eq_none_iff.1 hx] at this
      cases e : f.sys.st.unlockOne tl.unl with
      | none => rw [e] at hs; cases hs
      | some y => rw [e] at this; cases this
    · rename_i h1 h2
      cases hp : s.proc a with
      | upd ph =>
        rw [hp] at hs
        cases ph with
        | tail b tl => exact h1 _ _ hp
        | _ => cases hs
      | del ph =>
        rw [hp] at hs
        cases ph with
        | tail b tl => exact h2 _ _ hp
        | _ => cases hs
      | _ => rw [hp] at hs; cases hs
  | some x =>
    rcases exec_inv (act := .unlock a) h.inv trivial trivial hx with ⟨s', ev, _, _, e, _⟩ | ⟨e, _, h2⟩
    · subst e
      obtain ⟨rfl, ⟨b, tl, u, st', hp, hu, e⟩ | ⟨b, tl, u, st', hp, hu, e⟩⟩ := exec_unlock_ok hx
      · obtain ⟨st2, e1, e2, e3⟩ := unlockOne_rel h hu (fun e => hroot (by rw [hp]; exact e))
        subst e
        simp only [exec] at hs
        rw [h.proc, hp] at hs
        simp only [e1, Option.map_some] at hs
        cases hs
        obtain ⟨t', seen', hF⟩ := h.both (act := .unlock a) (by simp) trivial trivial (hY _ _ _ hx rfl (by simp only [Sys.set, h.proc])) hx (st' := st2) e2 e3
        refine .inl ⟨_, .none, _, t', seen', ?_, hF⟩
        simp only [bind, Except.bind, pure, Except.pure, Sys.set, h.proc]
      · obtain ⟨st2, e1, e2, e3⟩ := unlockOne_rel h hu (fun e => hroot (by rw [hp]; exact e))
        subst e
        simp only [exec] at hs
        rw [h.proc, hp] at hs
        simp only [e1, Option.map_some] at hs
        cases hs
        obtain ⟨t', seen', hF⟩ := h.both (act := .unlock a) (by simp) trivial trivial (hY _ _ _ hx rfl (by simp only [Sys.set, h.proc])) hx (st' := st2) e2 e3
        refine .inl ⟨_, .none, _, t', seen', ?_, hF⟩
        simp only [bind, Except.bind, pure, Except.pure, Sys.set, h.proc]
    · exact h2.elim

/-- Every step of which the whole is one access. -/
theorem FRelX.whole (h : FRelX env X f s σ t seen) {Y : Sys → Spec → Prop} {act : FAct} (hn : ∀ a, act ≠ .step a) (hall : env.Allowed f.sys act.act)
    (hcalm : Calm s act.act ∨ FCalm f act) {r} (hs : Radix.fexec env.fetch f act = some r)
    (hY : ∀ f' s' ev, env.Allowed s act.act → Calm s act.act → exec env.fetch s act.act = some (.ok (s', ev)) → r = .ok (f', ev) → f'.sys.proc = s'.proc →
      Y s' (σ.next ev)) : Done env Y σ act.act s r := by
  have hall' : env.Allowed s act.act := by
    rw [h.sys] at hall
    cases act with
    | begin a c => cases c <;> exact hall
    | _ => exact hall
  have hcalm' : Calm s act.act := by
    rcases hcalm with hcalm | hcalm
    · exact hcalm
    have : Calm f.sys act.act := by
      cases act with
      | step a => exact absurd rfl (hn a)
      | _ => exact hcalm
    rw [h.sys] at this
    exact calm_relock hn this
  have main : ∀ x, exec env.fetch f.sys act.act = some x → r = (do let r ← x; return (⟨r.1, f.fine⟩, r.2)) →
      (s.plain act.act ∨ ∃ a, act = .unlock a) → Done env Y σ act.act s r := by
    intro x h1 h2 h3
    subst h2
    have hY' : ∀ f' s' ev, exec env.fetch s act.act = some (.ok (s', ev)) → x = .ok (f', ev) → f'.proc = s'.proc → Y s' (σ.next ev) := by
      intro f' s' ev g1 g2 g3
      subst g2
      exact hY _ _ _ hall' hcalm' g1 rfl g3
    rcases h3 with h3 | ⟨a, rfl⟩
    · exact h.plainAct h3 hn hall' hcalm' h1 hY'
    · exact h.unlockAct h1 hY'
  have hmap : ∀ {y : Option (Res (Sys × Ev))}, y.map (fun r => do let r ← r; return ((⟨r.1, f.fine⟩ : FSys), r.2)) = some r →
      ∃ x, y = some x ∧ r = (do let r ← x; return (⟨r.1, f.fine⟩, r.2)) := by
    intro y hy
    cases y with
    | none => cases hy
    | some x => cases hy; exact ⟨x, rfl, rfl⟩
  cases act with
  | step a => exact absurd rfl (hn a)
  | tail a =>
    simp only [Radix.fexec] at hs
    split at hs
    · rename_i hrel
      obtain ⟨x, h1, h2⟩ := hmap hs
      exact main x h1 h2 (.inl (by rw [h.proc] at hrel; exact hrel))
    · cases hs
  | unlock a =>
    obtain ⟨x, h1, h2⟩ := hmap hs
    exact main x h1 h2 (.inr ⟨a, rfl⟩)
  | _ =>
    simp only [Radix.fexec] at hs
    obtain ⟨x, h1, h2⟩ := hmap hs
    exact main x h1 h2 (.inl trivial)

/-- Every step. -/
theorem FRelX.fexec (h : FRelX env X f s σ t seen) {act : FAct} (hall : env.Allowed f.sys act.act) (hcalm : Calm s act.act ∨ FCalm f act) {r}
    (hs : Radix.fexec env.fetch f act = some r)
    (hX : (∀ a, act ≠ .step a) → ∀ f' s' ev, env.Allowed s act.act → Calm s act.act → exec env.fetch s act.act = some (.ok (s', ev)) → r = .ok (f', ev) →
      f'.sys.proc = s'.proc → X s' (σ.next ev)) : Done env X σ act.act s r := by
  by_cases hst : ∃ a, act = .step a
  · obtain ⟨a, rfl⟩ := hst
    simp only [Radix.fexec] at hs
    cases e : Radix.fstep env.fetch f a with
    | none => rw [e] at hs; cases hs
    | some x =>
      rw [e] at hs
      obtain ⟨f', s', t', seen', rfl, hF⟩ := h.fstep hcalm e
      cases hs
      exact .inl ⟨f', .none, s', t', seen', rfl, hF⟩
  · have hn : ∀ a, act ≠ .step a := fun a e => hst ⟨a, e⟩
    exact h.whole hn hall hcalm hs (hX hn)

/-- The same for executions. -/
theorem FRel.fexec {G : Sys → Act → Prop} [FineG G] (h : FRel env G f s σ t seen) {act : FAct} (hall : env.Allowed f.sys act.act)
    (hcalm : Calm s act.act ∨ FCalm f act) (hG : (∀ a, act ≠ .step a) → G s act.act) {r}
    (hs : Radix.fexec env.fetch f act = some r) : Done env (Run env G) σ act.act s r :=
  FRelX.fexec h hall hcalm hs fun hn _ _ _ h1 _ h2 _ _ => .step h.run h1 (hG hn) h2

/-! ## Executions -/

variable {G : Sys → Act → Prop} [FineG G]

theorem LockRel.fresh (st : St) : LockRel (fun _ => .none) st st :=
  ⟨fun _ _ h => (List.not_mem_nil h).elim, fun _ _ _ _ h => (List.not_mem_nil h).elim, fun _ => by simp [FPh.temp, Distinct], fun _ _ => rfl, .inr ⟨fun _ => rfl, rfl⟩⟩

theorem FSys.new_rel (env : Env) (G : Sys → Act → Prop) (n : Nat) : ∃ t seen, FRel env G (FSys.new n) (Sys.new n) .init t seen :=
  ⟨_, _, .init n, new_inv env n, rfl, .fresh _, fun _ => trivial⟩

/-- Every execution with fine steps is related to one with coarse steps, if the restriction `H` of the former makes the steps of the latter calm and
implies the restriction `G`. -/
theorem FRun.relOf {H : FSys → FAct → Prop} (hH : ∀ {f s σ t seen act}, FRel env G f s σ t seen → H f act →
      (Calm s act.act ∨ FCalm f act) ∧ ((∀ a, act ≠ .step a) → G s act.act))
    (h : FRun env H f σ) : ∃ s t seen, FRel env G f s σ t seen := by
  induction h with
  | init n => exact ⟨_, FSys.new_rel env G n⟩
  | reload _ hs ih =>
    obtain ⟨s, t, seen, hF⟩ := ih
    have hs' : s.Savable := by
      have e := hF.sys
      rw [e] at hs
      exact ⟨hs.idle, hs.ready, hs.flushed⟩
    refine ⟨⟨s.st.restore, fun _ => .idle⟩, t, _, .reload hF.run hs', restore_inv hF.inv hs', ?_, ?_, fun _ => trivial⟩
    · simp only [Sys.relock]
      rw [hF.st]
      rfl
    · simp only
      rw [hF.st]
      exact .fresh _
  | step _ h1 h2 h3 ih =>
    obtain ⟨s, t, seen, hF⟩ := ih
    rcases hF.fexec h1 (hH hF h2).1 (hH hF h2).2 h3 with ⟨_, _, s', t', seen', e, hF'⟩ | ⟨_, e, _⟩
    · cases e; exact ⟨s', t', seen', hF'⟩
    · cases e

theorem FRel.calm (h : FRel env G f s σ t seen) {act : FAct} (hn : ∀ a, act ≠ .step a) (hcalm : FCalm f act) : Calm s act.act := by
  have : Calm f.sys act.act := by
    cases act with
    | step a => exact absurd rfl (hn a)
    | _ => exact hcalm
  rw [h.sys] at this
  exact calm_relock hn this

/-- Every calm execution with fine steps is related to one with coarse steps. -/
theorem FRun.rel (h : FRun env FCalm f σ) : ∃ s t seen, FRel env Calm f s σ t seen :=
  h.relOf fun hF hcalm => ⟨.inr hcalm, fun hn => hF.calm hn hcalm⟩

end
end Radix
