import Verif.Sys.FineInv
/-!
# The fine steps of a prepare
-/
set_option autoImplicit false
set_option linter.unusedSectionVars false
namespace Radix
open T

section
variable {env : Env} {X : Sys → Spec → Prop} [FineX env X] {f : FSys} {s : Sys} {σ : Spec} {t : T} {seen : Nat → T → Prop} {a : Nat}

namespace FRelX
variable (h : FRelX env X f s σ t seen)
include h

theorem keepLocks (ht : (f.fine a).temp = []) (hr : (f.fine a).holdsRoot = false) {ph : FPh} (h1 : ph.temp = []) (h2 : ph.holdsRoot = false) :
    LockRel (upd f.fine a ph) f.sys.st s.st := h.locks.keep (by rw [h1, ht]) (by rw [h2, hr])

/-! ## Reading a node -/

theorem worldU {op : UpdOp} (hp : s.proc a = .upd (.body op)) : World env a s (seen a) ∧
    ∃ q n pfx big ch, Ref (seen a) op.raw q n pfx big ch ∧ op.node = n ∧ op.count = cnt big ch := by
  have hP := h.inv.proc a
  rw [hp] at hP
  obtain ⟨q, _, hw4, hc⟩ := hP
  obtain ⟨hw, n, pfx, big, ch, hr⟩ := h.inv.seenRef (a := a) (by rw [hp]; rfl) hw4.ref
  exact ⟨hw, q, n, pfx, big, ch, hr, by rw [← hr.fields.addr]; exact hw4.node, by rw [hc, ← hr.fields.count]; rfl⟩

theorem worldD {cur : DelCur} (hp : s.proc a = .del (.body cur)) : World env a s (seen a) ∧
    ∃ q n pfx big ch, Ref (seen a) cur.op.raw q n pfx big ch ∧ cur.op.node = n := by
  have hP := h.inv.proc a
  rw [hp] at hP
  obtain ⟨q, _, hw4⟩ := hP
  obtain ⟨hw, n, pfx, big, ch, hr⟩ := h.inv.seenRef (a := a) (by rw [hp]; rfl) hw4.ref
  exact ⟨hw, q, n, pfx, big, ch, hr, by rw [← hr.fields.addr]; exact hw4.node⟩

theorem readU {op : UpdOp} (hp : s.proc a = .upd (.body op)) {P : Prog UPh} {l : Option St} (hP : P.isRet = false)
    (hE : Ends env a (fun st r => r = bodyU st op) P l (seen a)) (ht : (f.fine a).temp = []) (hr : (f.fine a).holdsRoot = false) :
    Good env X σ (f.readU a P) := by
  have hE' := hE.step hP (h.worldU hp).1
  unfold FSys.readU
  rw [h.next]
  have key : ∀ P' : Prog UPh, P'.isRet = false → Ends env a (fun st r => r = bodyU st op) P' (some s.st) (seen a) →
      Good env X σ (.ok (f.set a f.sys.st (f.sys.proc a) (.readU P'))) := fun P' h1 h2 =>
    ⟨_, s, t, seen, rfl, h.stay (by rw [h.proc]) h.st (h.keepLocks ht hr rfl rfl) ⟨h1, op, _, hp, h2⟩⟩
  cases e : P.next s.st with
  | ret r =>
    rw [e] at hE'
    obtain ⟨st, e1, e2⟩ := hE'
    cases e1
    obtain ⟨ph', st2, e3, hgo⟩ := h.goU hp (by simp only [Calm, hp]) (by simp) (by simp)
    simp only [stepU] at e3
    rw [← e2] at e3
    cases r with
    | error e => cases e3
    | ok ph =>
      cases e3
      exact ⟨_, _, t, seen, rfl, hgo h.st (h.keepLocks ht hr rfl rfl) trivial⟩
  | root k => exact key _ rfl (by rw [← e]; exact hE')
  | blocks k => exact key _ rfl (by rw [← e]; exact hE')
  | load x k => exact key _ rfl (by rw [← e]; exact hE')

theorem readD {cur : DelCur} (hp : s.proc a = .del (.body cur)) {P : Prog DPh} {l : Option St} (hP : P.isRet = false)
    (hE : Ends env a (fun st r => r = bodyD st cur) P l (seen a)) (ht : (f.fine a).temp = []) (hr : (f.fine a).holdsRoot = false) :
    Good env X σ (f.readD a P) := by
  have hE' := hE.step hP (h.worldD hp).1
  unfold FSys.readD
  rw [h.next]
  have key : ∀ P' : Prog DPh, P'.isRet = false → Ends env a (fun st r => r = bodyD st cur) P' (some s.st) (seen a) →
      Good env X σ (.ok (f.set a f.sys.st (f.sys.proc a) (.readD P'))) := fun P' h1 h2 =>
    ⟨_, s, t, seen, rfl, h.stay (by rw [h.proc]) h.st (h.keepLocks ht hr rfl rfl) ⟨h1, cur, _, hp, h2⟩⟩
  cases e : P.next s.st with
  | ret r =>
    rw [e] at hE'
    obtain ⟨st, e1, e2⟩ := hE'
    cases e1
    obtain ⟨ph', st2, e3, hgo⟩ := h.goD hp (by simp only [Calm, hp]) (by simp) (by simp) (by simp)
    simp only [stepD] at e3
    rw [← e2] at e3
    cases r with
    | error e => cases e3
    | ok ph =>
      cases e3
      exact ⟨_, _, t, seen, rfl, hgo h.st (h.keepLocks ht hr rfl rfl) trivial⟩
  | root k => exact key _ rfl (by rw [← e]; exact hE')
  | blocks k => exact key _ rfl (by rw [← e]; exact hE')
  | load x k => exact key _ rfl (by rw [← e]; exact hE')

/-! ## The root lock -/

theorem rootTaken (hr : f.sys.st.rootLock = 0) (hok : FOK env a (seen a) (s.proc a) .root) (hf : (f.fine a).temp = []) :
    Good env X σ (.ok (f.set a { f.sys.st with rootLock := 1 } (f.sys.proc a) .root)) := by
  obtain ⟨h1, h2⟩ := h.locks.rootFree hr
  refine ⟨_, s, t, seen, rfl, h.stay (by rw [h.proc]) ?_ ?_ hok⟩
  · have := h.st
    show _ = s.st.relock f.sys.st.locks 1
    rw [this]
    rfl
  · refine h.locks.temp_congr (by rw [hf]; rfl) rfl rfl (.inl ⟨a, by rw [upd_same]; rfl, rfl, h1, fun c hc => ?_⟩)
    apply Decidable.byContradiction
    intro hca
    rw [upd_of_ne _ _ hca, h2 c] at hc
    cases hc

/-- The root lock is held by another operation; for a moment only, if `s` does not know about it. -/
theorem rootBusy (hr : f.sys.st.rootLock ≠ 0) (hf : (f.fine a).holdsRoot = false) : s.st.rootLock ≠ 0 ∨ s.contended a = true := by
  rcases h.locks.root with ⟨b, h1, h2, h3, h4⟩ | ⟨h1, h2⟩
  · refine .inr (h.contended (b := b) (fun e => ?_) (.inr h1))
    subst e
    rw [hf] at h1; cases h1
  · exact .inl (by omega)

theorem rootU {key : Key} {root : Word} (hp : s.proc a = .upd (.root key root)) (hf : f.fine a = .none) (hr : f.sys.st.rootLock ≠ 0) :
    Good env X σ (.ok (f.set a f.sys.st (.upd (.start key)) .none)) := by
  have hl : LockRel (upd f.fine a .none) f.sys.st s.st := h.keepLocks (by rw [hf]; rfl) (by rw [hf]; rfl) rfl rfl
  rcases h.rootBusy hr (a := a) (by rw [hf]; rfl) with h0 | hc
  · obtain ⟨ph', st2, e3, hgo⟩ := h.goU hp (by simp only [Calm, hp]) (by simp) (by simp)
    simp only [stepU, St.lockLeafRoot, if_neg h0] at e3
    cases e3
    exact ⟨_, _, t, seen, rfl, hgo h.st hl trivial⟩
  · obtain ⟨ph', e, hgo⟩ := h.slipU hp hc rfl
    cases e
    exact ⟨_, _, t, seen, rfl, hgo h.st hl trivial⟩

theorem rootD {key : Key} {root : Word} (hp : s.proc a = .del (.root key root)) (hf : f.fine a = .none) (hr : f.sys.st.rootLock ≠ 0) :
    Good env X σ (.ok (f.set a f.sys.st (.del (.start key)) .none)) := by
  have hl : LockRel (upd f.fine a .none) f.sys.st s.st := h.keepLocks (by rw [hf]; rfl) (by rw [hf]; rfl) rfl rfl
  rcases h.rootBusy hr (a := a) (by rw [hf]; rfl) with h0 | hc
  · obtain ⟨ph', st2, e3, hgo⟩ := h.goD hp (by simp only [Calm, hp]) (by simp) (by simp) (by simp)
    simp only [stepD, St.lockLeafRoot, if_neg h0] at e3
    cases e3
    exact ⟨_, _, t, seen, rfl, hgo h.st hl trivial⟩
  · obtain ⟨ph', e, hgo⟩ := h.slipD hp hc rfl
    cases e
    exact ⟨_, _, t, seen, rfl, hgo h.st hl trivial⟩

theorem rootLocks (hf : f.fine a = .root) {ph : FPh} (h1 : ph.temp = []) :
    s.st.rootLock = 0 ∧ (ph.holdsRoot = true → LockRel (upd f.fine a ph) f.sys.st s.st) ∧
      (ph.holdsRoot = false → LockRel (upd f.fine a ph) f.sys.st { s.st with rootLock := 1 }) := by
  obtain ⟨e1, e2, e3⟩ := h.locks.rootMine (a := a) (by rw [hf]; rfl)
  refine ⟨e2, fun hh => h.locks.keep (by rw [h1, hf]; rfl) (by rw [hh, hf]; rfl), fun hh => ?_⟩
  refine h.locks.temp_congr (by rw [h1, hf]; rfl) rfl rfl (.inr ⟨fun b => ?_, e1⟩)
  by_cases hb : b = a
  · subst hb; rw [upd_same]; exact hh
  · rw [upd_of_ne _ _ hb]; exact e3 b hb

theorem rootCmpU {key : Key} {root : Word} (hp : s.proc a = .upd (.root key root)) (hf : f.fine a = .root) :
    (f.sys.st.root = root → Good env X σ (do
      let ph ← rootHeldU key root
      return f.set a f.sys.st (.upd ph) .none)) ∧
    (f.sys.st.root ≠ root → Good env X σ (.ok (f.set a f.sys.st (.upd (.start key)) .rootBack))) := by
  rw [h.root]
  obtain ⟨ph', st2, e3, hgo⟩ := h.goU hp (by simp only [Calm, hp]) (by simp) (by simp)
  simp only [stepU, St.lockLeafRoot, (h.rootLocks (ph := .none) hf rfl).1, if_true] at e3
  constructor
  · intro hr
    rw [if_pos hr] at e3
    have e4 : rootHeldU key root = .ok ph' ∧ st2 = { s.st with rootLock := 1 } := by
      unfold rootHeldU
      simp only at e3
      cases hk : keyAt key 0 with
      | error e => rw [hk] at e3; cases e3
      | ok k =>
        rw [hk] at e3
        simp only [bind, Except.bind, pure, Except.pure] at e3 ⊢
        split at e3
        · rename_i h1; cases e3; exact ⟨by rw [if_pos h1], rfl⟩
        · rename_i h1
          split at e3
          · rename_i h2; cases e3; exact ⟨by rw [if_neg h1, if_pos h2], rfl⟩
          · rename_i h2; cases e3; exact ⟨by rw [if_neg h1, if_neg h2], rfl⟩
    rw [e4.1]
    obtain ⟨_, rfl⟩ := e4
    exact ⟨_, _, t, seen, rfl, hgo h.st ((h.rootLocks hf rfl).2.2 rfl) trivial⟩
  · intro hr
    rw [if_neg hr] at e3
    cases e3
    exact ⟨_, _, t, seen, rfl, hgo h.st ((h.rootLocks hf rfl).2.1 rfl) rfl⟩

theorem rootCmpD {key : Key} {root : Word} (hp : s.proc a = .del (.root key root)) (hf : f.fine a = .root) :
    (f.sys.st.root = root → Good env X σ (.ok (f.set a f.sys.st (.del (rootHeldD key root)) .none))) ∧
    (f.sys.st.root ≠ root → Good env X σ (.ok (f.set a f.sys.st (.del (.start key)) .rootBack))) := by
  rw [h.root]
  obtain ⟨ph', st2, e3, hgo⟩ := h.goD hp (by simp only [Calm, hp]) (by simp) (by simp) (by simp)
  simp only [stepD, St.lockLeafRoot, (h.rootLocks (ph := .none) hf rfl).1, if_true] at e3
  constructor
  · intro hr
    rw [if_pos hr] at e3
    cases e3
    exact ⟨_, _, t, seen, rfl, hgo h.st ((h.rootLocks hf rfl).2.2 rfl) trivial⟩
  · intro hr
    rw [if_neg hr] at e3
    cases e3
    exact ⟨_, _, t, seen, rfl, hgo h.st ((h.rootLocks hf rfl).2.1 rfl) rfl⟩

theorem rootGiven (hf : f.fine a = .rootBack) :
    Good env X σ (.ok (f.set a { f.sys.st with rootLock := f.sys.st.rootLock - 1 } (f.sys.proc a) .none)) := by
  obtain ⟨e1, e2, e3⟩ := h.locks.rootMine (a := a) (by rw [hf]; rfl)
  refine ⟨_, s, t, seen, rfl, h.stay (by rw [h.proc]) ?_ ?_ trivial⟩
  · show _ = s.st.relock f.sys.st.locks (f.sys.st.rootLock - 1)
    rw [h.st]
    rfl
  · refine h.locks.temp_congr (by rw [hf]; rfl) rfl rfl (.inr ⟨fun b => ?_, by show f.sys.st.rootLock - 1 = _; omega⟩)
    by_cases hb : b = a
    · subst hb; rw [upd_same]; rfl
    · rw [upd_of_ne _ _ hb]; exact e3 b hb

/-! ## The locks of nodes -/

/-- What the coarse call of `lockNodes2` or `lockNodes3` does. -/
structure Caller (env : Env) (X : Sys → Spec → Prop) (f : FSys) (s : Sys) (σ : Spec) (t : T) (seen : Nat → T → Prop) (a : Nat) (req : LockReq) (again : Proc) : Prop where
  call : (s.proc a).req? = some req
  start : again.starting = true
  lose : req.run s.st = (false, s.st) → ∀ {fph}, LockRel (upd f.fine a fph) f.sys.st s.st → FOK env a (seen a) again fph →
    FRelX env X (f.set a f.sys.st again fph) (s.set a s.st again) σ t seen
  slip : s.contended a = true → ∀ {fph}, LockRel (upd f.fine a fph) f.sys.st s.st → FOK env a (seen a) again fph →
    FRelX env X (f.set a f.sys.st again fph) (s.set a s.st again) σ t seen

theorem callU {found : Bool} {op : UpdOp} (hp : s.proc a = .upd (.lock found op)) :
    Caller env X f s σ t seen a op.req (.upd (.start op.key)) := by
  refine ⟨by rw [hp]; rfl, rfl, fun hl fph h1 h2 => ?_, fun hc fph h1 h2 => ?_⟩
  · obtain ⟨ph', st2, e3, hgo⟩ := h.goU hp (by simp only [Calm, hp]) (by simp) (by simp)
    simp only [LockReq.run, UpdOp.req] at hl
    simp only [stepU, hl] at e3
    cases e3
    exact hgo h.st h1 h2
  · obtain ⟨ph', e, hgo⟩ := h.slipU hp hc rfl
    cases e
    exact hgo h.st h1 h2

theorem callD {cur : DelCur} (hp : s.proc a = .del (.lock cur)) :
    Caller env X f s σ t seen a cur.op.req (.del (.start cur.key)) := by
  refine ⟨by rw [hp]; rfl, rfl, fun hl fph h1 h2 => ?_, fun hc fph h1 h2 => ?_⟩
  · obtain ⟨ph', st2, e3, hgo⟩ := h.goD hp (by simp only [Calm, hp]) (by simp) (by simp) (by simp)
    simp only [LockReq.run, DelOp.req] at hl
    simp only [stepD, hl] at e3
    cases e3
    exact hgo h.st h1 h2
  · obtain ⟨ph', e, hgo⟩ := h.slipD hp hc rfl
    cases e
    exact hgo h.st h1 h2

theorem callM {cur : DelCur} {other : Word} {plen : Nat} (hp : s.proc a = .del (.lock3 cur other plen)) :
    Caller env X f s σ t seen a cur.op.req3 (.del (.start cur.key)) := by
  refine ⟨by rw [hp]; rfl, rfl, fun hl fph h1 h2 => ?_, fun hc fph h1 h2 => ?_⟩
  · simp only [LockReq.run, DelOp.req3] at hl
    obtain ⟨ph', st2, e3, hgo⟩ := h.goD hp (by simp only [Calm, hp, hl]; intro h; cases h) (by simp) (by simp) (by simp)
    simp only [stepD, hl] at e3
    cases e3
    exact hgo h.st h1 h2
  · obtain ⟨ph', e, hgo⟩ := h.slipD hp hc rfl
    cases e
    exact hgo h.st h1 h2

/-- The arguments are refused. -/
theorem refuse {req : LockReq} {again : Proc} (hc : Caller env X f s σ t seen a req again) (hpl : lockPlan req = none) (hf : f.fine a = .none) :
    Good env X σ (.ok (f.set a f.sys.st again .none)) :=
  ⟨_, _, t, seen, rfl, hc.lose (LockReq.run_none hpl) (h.keepLocks (by rw [hf]; rfl) (by rw [hf]; rfl) rfl rfl) trivial⟩

/-- A compare-and-swap fails. -/
theorem casFail {req : LockReq} {again : Proc} (hc : Caller env X f s σ t seen a req again) {n : Nat} {g : Int} {todo got : List (Nat × Int)}
    (hpl : lockPlan req = some (got ++ (n, g) :: todo)) (hf : (f.fine a).temp = got) (hr : (f.fine a).holdsRoot = false)
    (hg : f.sys.st.gen n ≠ g) : Good env X σ (.ok (f.set a f.sys.st again (if got.isEmpty then .none else .back got))) := by
  have hl : LockRel (upd f.fine a (if got.isEmpty then .none else .back got)) f.sys.st s.st := by
    refine h.locks.keep ?_ ?_
    · rw [hf]
      cases got <;> rfl
    · rw [hr]
      cases got <;> rfl
  have hok : FOK env a (seen a) again (if got.isEmpty then .none else .back got) := by
    cases got with
    | nil => trivial
    | cons x l => exact ⟨by simp, hc.start⟩
  by_cases hs : s.st.gen n = g
  · rcases h.locks.cases n with ⟨b, x, h1, h2, h3, h4⟩ | ⟨h1, _⟩
    · refine ⟨_, _, t, seen, rfl, hc.slip (h.contended (b := b) (fun e => ?_) (.inl ⟨x, h1⟩)) hl hok⟩
      subst e
      rw [hf] at h1
      have hd := (lockPlan_facts hpl).1
      rw [List.map_append, Distinct, List.pairwise_append] at hd
      exact hd.2.2 x.1 (List.mem_map.2 ⟨x, h1, rfl⟩) n (by simp) h2
    · exact absurd (h1.trans hs) hg
  · exact ⟨_, _, t, seen, rfl, hc.lose (LockReq.run_lose hpl ⟨(n, g), by simp, hs⟩) hl hok⟩

/-- A compare-and-swap succeeds, more are to come. -/
theorem casNext {n : Nat} {g : Int} {got : List (Nat × Int)} (he : g % 2 = 0)
    (hf : (f.fine a).temp = got) (hr : (f.fine a).holdsRoot = false)
    (hg : f.sys.st.gen n = g) {ph : FPh} (ht : ph.temp = got ++ [(n, g)]) (hh : ph.holdsRoot = false) (hok : FOK env a (seen a) (s.proc a) ph) :
    FRelX env X (f.set a (f.sys.st.setGen n (g + 1)) (f.sys.proc a) ph) s σ t seen := by
  refine h.stay (by rw [h.proc]) ?_ (h.locks.take hg he (by rw [ht, hf]) (by rw [hh, hr])) hok
  show _ = s.st.relock _ f.sys.st.rootLock
  conv => lhs; rw [h.st]
  simp only [St.setGen, St.relock]

/-- All locks are taken. -/
theorem casWin {req : LockReq} {plan : List (Nat × Int)} (hpl : lockPlan req = some plan)
    (hf : (f.fine a).temp = plan) (hr : (f.fine a).holdsRoot = false) {ph : FPh} (ht : ph.temp = []) (hh : ph.holdsRoot = false) :
    ∃ L, req.run s.st = (true, s.st.relock L s.st.rootLock) ∧ LockRel (upd f.fine a ph) f.sys.st (s.st.relock L s.st.rootLock) ∧
      ∀ n, (∃ x ∈ plan, sameLock x.1 n) → f.sys.st.gen n = s.st.gen n + 1 := by
  obtain ⟨L, e1, e2⟩ := LockReq.run_win (st := s.st) hpl fun x hx => (h.locks.held a x (by rw [hf]; exact hx)).2.1
  refine ⟨L, e1, h.locks.win rfl (by rw [hf]; exact e2) ht (by rw [hh, hr]), ?_⟩
  rintro n ⟨x, hx, e⟩
  obtain ⟨h1, h2, _⟩ := h.locks.held a x (by rw [hf]; exact hx)
  rw [gen_congr e] at h1 h2
  omega

theorem setGenSt (n : Nat) (g : Int) : f.sys.st.setGen n g = s.st.relock (f.sys.st.setGen n g).locks (f.sys.st.setGen n g).rootLock := by
  show _ = s.st.relock _ f.sys.st.rootLock
  conv => lhs; rw [h.st]
  simp only [St.setGen, St.relock]

/-- The last compare-and-swap succeeds. -/
theorem casLast {req : LockReq} {got : List (Nat × Int)} {n : Nat} {g : Int} (hpl : lockPlan req = some (got ++ [(n, g)]))
    (hf : (f.fine a).temp = got) (hr : (f.fine a).holdsRoot = false) (hg : f.sys.st.gen n = g) :
    ∃ L, req.run s.st = (true, s.st.relock L s.st.rootLock) ∧
      LockRel (upd f.fine a .none) (f.sys.st.setGen n (g + 1)) (s.st.relock L s.st.rootLock) := by
  have he : g % 2 = 0 := (lockPlan_facts hpl).2.1 (n, g) (by simp)
  have hl := h.locks.take (a := a) (ph := .take [] (got ++ [(n, g)])) hg he (by rw [hf]; rfl) (by rw [hr]; rfl)
  obtain ⟨L, e1, e2⟩ := LockReq.run_win (st := s.st) hpl fun x hx => (hl.held a x (by rw [upd_same]; exact hx)).2.1
  refine ⟨L, e1, ?_⟩
  have := hl.win (a := a) (ph := .none) (st0' := s.st.relock L s.st.rootLock) rfl (by rw [upd_same]; exact e2) rfl (by rw [upd_same]; rfl)
  rw [upd_upd] at this
  exact this

/-- A compare-and-swap of `lockNodes2` in an update. -/
theorem casU {found : Bool} {op : UpdOp} (hp : s.proc a = .upd (.lock found op)) {todo got : List (Nat × Int)} (hn : todo ≠ [])
    (hpl : lockPlan op.req = some (got ++ todo)) (hf : (f.fine a).temp = got) (hr : (f.fine a).holdsRoot = false) :
    Good env X σ (.ok (f.cas a (.upd (.start op.key)) (.upd (.held found op)) (fun _ => .none) todo got)) := by
  cases todo with
  | nil => exact absurd rfl hn
  | cons x todo =>
    obtain ⟨n, g⟩ := x
    simp only [FSys.cas]
    have he : g % 2 = 0 := (lockPlan_facts hpl).2.1 (n, g) (by simp)
    by_cases hg : f.sys.st.gen n = g
    · rw [if_pos hg]
      cases todo with
      | nil =>
        obtain ⟨L, e1, e2⟩ := h.casLast hpl hf hr hg
        obtain ⟨ph', st2, e3, hgo⟩ := h.goU hp (by simp only [Calm, hp]) (by simp) (by simp)
        simp only [LockReq.run, UpdOp.req] at e1
        simp only [stepU, e1] at e3
        cases e3
        exact ⟨_, _, t, seen, rfl, hgo (h.setGenSt n (g + 1)) e2 trivial⟩
      | cons y todo => exact ⟨_, s, t, seen, rfl, h.casNext he hf hr hg rfl rfl ⟨by simp, op.req, by rw [hp]; rfl, by rw [hpl]; simp⟩⟩
    · rw [if_neg hg]
      exact h.casFail (h.callU hp) hpl hf hr hg

/-- The same in a delete. -/
theorem casD {cur : DelCur} (hp : s.proc a = .del (.lock cur)) {todo got : List (Nat × Int)} (hn : todo ≠ [])
    (hpl : lockPlan cur.op.req = some (got ++ todo)) (hf : (f.fine a).temp = got) (hr : (f.fine a).holdsRoot = false) :
    Good env X σ (.ok (f.cas a (.del (.start cur.key)) (.del (.held cur)) (fun _ => .none) todo got)) := by
  cases todo with
  | nil => exact absurd rfl hn
  | cons x todo =>
    obtain ⟨n, g⟩ := x
    simp only [FSys.cas]
    have he : g % 2 = 0 := (lockPlan_facts hpl).2.1 (n, g) (by simp)
    by_cases hg : f.sys.st.gen n = g
    · rw [if_pos hg]
      cases todo with
      | nil =>
        obtain ⟨L, e1, e2⟩ := h.casLast hpl hf hr hg
        obtain ⟨ph', st2, e3, hgo⟩ := h.goD hp (by simp only [Calm, hp]) (by simp) (by simp) (by simp)
        simp only [LockReq.run, DelOp.req] at e1
        simp only [stepD, e1] at e3
        cases e3
        exact ⟨_, _, t, seen, rfl, hgo (h.setGenSt n (g + 1)) e2 trivial⟩
      | cons y todo => exact ⟨_, s, t, seen, rfl, h.casNext he hf hr hg rfl rfl ⟨by simp, cur.op.req, by rw [hp]; rfl, by rw [hpl]; simp⟩⟩
    · rw [if_neg hg]
      exact h.casFail (h.callD hp) hpl hf hr hg

/-- What is known about the two nodes that are merged. -/
theorem worldM {cur : DelCur} {other : Word} {plen : Nat} (hp : s.proc a = .del (.lock3 cur other plen)) : World env a s (seen a) ∧
    Ends env a (fun st r => r = mergeRead st cur other plen) (mergeP cur other plen) (some s.st) (seen a) ∧ (mergeP cur other plen).isRet = false ∧
    cur.op.node ≠ 0 := by
  have hP := h.inv.proc a
  rw [hp] at hP
  obtain ⟨_, _, hc, hpl, hd, q, pfx, k, k2, lk, lv, pfx2, big2, hw4, hs2, _⟩ := hP
  have hact : (s.proc a).active = true := by rw [hp]; rfl
  obtain ⟨hw, n, pfx1, big1, ch1, hr⟩ := h.inv.seenRef (a := a) hact hw4.ref
  obtain ⟨_, n2, pfx2', big2', ch2', hr2⟩ := h.inv.seenRef (a := a) hact hs2
  have hn : cur.op.node = n := by rw [← hr.fields.addr]; exact hw4.node
  refine ⟨hw, ends_merge hr hn hr2 (by rw [hc, hr2.fields.addr]) hpl hd ⟨s, seen a, rfl, hw, fun _ h => h⟩, ?_, ?_⟩
  · have hlen : 0 < cur.op.data.len := by
      rw [hd]
      show 0 < blockSlots - cur.op.node % blockSlots
      have : cur.op.node % blockSlots < blockSlots := Nat.mod_lt _ (by decide)
      omega
    unfold mergeP appendPrefixP
    by_cases h0 : plen = 0
    · rw [if_pos h0]; rfl
    · rw [if_neg h0]
      by_cases h1 : plen = 255
      · rw [if_pos h1]
        unfold Slice.getP
        rw [if_pos hlen]
        rfl
      · rw [if_neg h1, if_pos hlen]
        obtain ⟨m, hm⟩ : ∃ m, (plen + 7) / 8 = m + 1 := ⟨(plen + 7) / 8 - 1, by omega⟩
        rw [hm]
        rfl
  · obtain ⟨ch', _, e2, _⟩ := hw.view hr.inS fun _ h => h
    have := (e2 0).inb.1.1
    omega

/-- A compare-and-swap of `lockNodes3`. -/
theorem casM {cur : DelCur} {other : Word} {plen : Nat} (hp : s.proc a = .del (.lock3 cur other plen)) {todo got : List (Nat × Int)} (hn : todo ≠ [])
    (hpl : lockPlan cur.op.req3 = some (got ++ todo)) (hf : (f.fine a).temp = got) (hr : (f.fine a).holdsRoot = false) :
    Good env X σ (.ok (f.cas a (.del (.start cur.key)) (f.sys.proc a) (fun got => .merge got (mergeP cur other plen)) todo got)) := by
  cases todo with
  | nil => exact absurd rfl hn
  | cons x todo =>
    obtain ⟨n, g⟩ := x
    simp only [FSys.cas]
    have he : g % 2 = 0 := (lockPlan_facts hpl).2.1 (n, g) (by simp)
    by_cases hg : f.sys.st.gen n = g
    · rw [if_pos hg]
      cases todo with
      | nil =>
        have hm := h.worldM hp
        exact ⟨_, s, t, seen, rfl, h.casNext he hf hr hg rfl rfl ⟨hm.2.2.1, cur, other, plen, _, hp, hpl, hm.2.1⟩⟩
      | cons y todo => exact ⟨_, s, t, seen, rfl, h.casNext he hf hr hg rfl rfl ⟨by simp, cur.op.req3, by rw [hp]; rfl, by rw [hpl]; simp⟩⟩
    · rw [if_neg hg]
      exact h.casFail (h.callM hp) hpl hf hr hg

/-- Reading the prefixes. -/
theorem readM {cur : DelCur} {other : Word} {plen : Nat} (hp : s.proc a = .del (.lock3 cur other plen)) {P : Prog DPh} {l : Option St} (hP : P.isRet = false)
    (hE : Ends env a (fun st r => r = mergeRead st cur other plen) P l (seen a)) {got : List (Nat × Int)} (hf : f.fine a = .merge got P)
    (hpl : lockPlan cur.op.req3 = some got)
    (hcalm : Calm s (.run a) ∨ f.sys.st.gen cur.op.node = cur.op.nodeGen + 1 ∧ (cur.op.parent ≠ 0 → f.sys.st.gen cur.op.parent = cur.op.parentGen + 1)) :
    Good env X σ (f.readM a got P) := by
  obtain ⟨hw, _, _, hn0⟩ := h.worldM hp
  have hE' := hE.step hP hw
  unfold FSys.readM
  rw [h.next]
  have key : ∀ P' : Prog DPh, P'.isRet = false → Ends env a (fun st r => r = mergeRead st cur other plen) P' (some s.st) (seen a) →
      Good env X σ (.ok (f.set a f.sys.st (f.sys.proc a) (.merge got P'))) := fun P' h1 h2 =>
    ⟨_, s, t, seen, rfl, h.stay (by rw [h.proc]) h.st (h.locks.keep (by rw [hf]; rfl) (by rw [hf]; rfl)) ⟨h1, cur, other, plen, _, hp, hpl, h2⟩⟩
  cases e : P.next s.st with
  | ret r =>
    rw [e] at hE'
    obtain ⟨st, e1, e2⟩ := hE'
    cases e1
    obtain ⟨L, e4, e5, e6⟩ := h.casWin (ph := .none) hpl (by rw [hf]; rfl) (by rw [hf]; rfl) rfl rfl
    have hnodes := (lockPlan_facts hpl).2.2.1
    simp only [LockReq.run, DelOp.req3] at e4
    have hcs : Calm s (.run a) := by
      rcases hcalm with hcalm | hcalm
      · exact hcalm
      simp only [Calm, hp]
      intro _
      refine ⟨?_, fun hne => ?_⟩
      · have := e6 _ (hnodes cur.op.node (by simp only [DelOp.req3, LockReq.nodes]; split <;> simp [hn0]))
        have := hcalm.1
        omega
      · have := e6 _ (hnodes cur.op.parent (by simp only [DelOp.req3, LockReq.nodes, if_neg hne]; simp))
        have := hcalm.2 hne
        omega
    obtain ⟨ph', st2, e3, hgo⟩ := h.goD hp hcs (by simp) (by simp) (by simp)
    simp only [stepD, e4] at e3
    have e7 : (mergeRead s.st cur other plen).map (fun ph => (ph, s.st.relock L s.st.rootLock)) = .ok (ph', st2) := by
      rw [← e3]
      simp only [mergeRead, bind, res_map_bind]
      rfl
    rw [← e2] at e7
    cases r with
    | error e => cases e7
    | ok ph =>
      cases e7
      exact ⟨_, _, t, seen, rfl, hgo h.st e5 trivial⟩
  | root k => exact key _ rfl (by rw [← e]; exact hE')
  | blocks k => exact key _ rfl (by rw [← e]; exact hE')
  | load x k => exact key _ rfl (by rw [← e]; exact hE')

/-- Giving back a lock. -/
theorem giveBack {n : Nat} {g : Int} {todo : List (Nat × Int)} (hf : f.fine a = .back ((n, g) :: todo)) (hs : (s.proc a).starting = true) :
    Good env X σ (.ok (f.set a (f.sys.st.setGen n (f.sys.st.gen n - 1)) (f.sys.proc a) (if todo.isEmpty then .none else .back todo))) := by
  refine ⟨_, s, t, seen, rfl, h.stay (by rw [h.proc]) (h.setGenSt _ _) (h.locks.give (n := n) (g := g) ?_ ?_) ?_⟩
  · rw [hf]; cases todo <;> rfl
  · rw [hf]; cases todo <;> rfl
  · cases todo with
    | nil => trivial
    | cons x l => exact ⟨by simp, hs⟩

/-! ## Reading generations, and steps that are the same -/

/-- Reading the generation of a node: as in the other system, or the lock is held for a moment. -/
theorem genCases (hf : f.fine a = .none) (n : Nat) : (f.sys.st.generation n = s.st.generation n ∧ f.sys.st.gen n = s.st.gen n) ∨
    (s.contended a = true ∧ s.st.gen n % 2 = 0 ∧ f.sys.st.generation n = (s.st.generation n).map (· + 1)) := by
  have hnb : f.sys.st.nblocks = s.st.nblocks := by rw [h.st]; rfl
  rcases h.locks.cases n with ⟨b, x, h1, h2, h3, h4⟩ | ⟨h1, _⟩
  · refine .inr ⟨h.contended (b := b) (fun e => ?_) (.inl ⟨x, h1⟩), h4, ?_⟩
    · subst e; rw [hf] at h1; cases h1
    · unfold St.generation
      rw [hnb, h3]
      split <;> rfl
  · refine .inl ⟨?_, h1⟩
    unfold St.generation
    rw [hnb, h1]

theorem sameU {ph : UPh} (hp : s.proc a = .upd ph) (hf : f.fine a = .none) (hcalm : Calm s (.run a)) (h1 : ∀ f op, ph ≠ .held f op)
    (h2 : ∀ r tl, ph ≠ .tail r tl)
    (he : stepU f.sys.st ph = (stepU s.st ph).map fun x => (x.1, f.sys.st)) (hs : ∀ ph' st', stepU s.st ph = .ok (ph', st') → st' = s.st) :
    Good env X σ (do
      let r ← stepU f.sys.st ph
      return f.set a r.2 (.upd r.1) .none) := by
  obtain ⟨ph', st2, e3, hgo⟩ := h.goU hp hcalm h1 h2
  have := hs _ _ e3
  subst this
  rw [he, e3]
  exact ⟨_, _, t, seen, rfl, hgo h.st (h.keepLocks (by rw [hf]; rfl) (by rw [hf]; rfl) rfl rfl) trivial⟩

theorem sameD {ph : DPh} (hp : s.proc a = .del ph) (hf : f.fine a = .none) (hcalm : Calm s (.run a)) (h1 : ∀ cur, ph ≠ .held cur)
    (h2 : ∀ r tl, ph ≠ .tail r tl) (h3 : ∀ key, ph ≠ .miss key)
    (he : stepD f.sys.st ph = (stepD s.st ph).map fun x => (x.1, f.sys.st)) (hs : ∀ ph' st', stepD s.st ph = .ok (ph', st') → st' = s.st) :
    Good env X σ (do
      let r ← stepD f.sys.st ph
      return f.set a r.2 (.del r.1) .none) := by
  obtain ⟨ph', st2, e3, hgo⟩ := h.goD hp hcalm h1 h2 h3
  have := hs _ _ e3
  subst this
  rw [he, e3]
  exact ⟨_, _, t, seen, rfl, hgo h.st (h.keepLocks (by rw [hf]; rfl) (by rw [hf]; rfl) rfl rfl) trivial⟩

theorem slippedU {ph : UPh} (hp : s.proc a = .upd ph) (hf : f.fine a = .none) (hc : s.contended a = true) {r} (hs : Radix.slipU s.st ph = some r)
    (he : stepU f.sys.st ph = r.map fun x => (x, f.sys.st)) :
    Good env X σ (do
      let r ← stepU f.sys.st ph
      return f.set a r.2 (.upd r.1) .none) := by
  obtain ⟨ph', rfl, hgo⟩ := h.slipU hp hc hs
  rw [he]
  exact ⟨_, _, t, seen, rfl, hgo h.st (h.keepLocks (by rw [hf]; rfl) (by rw [hf]; rfl) rfl rfl) trivial⟩

theorem slippedD {ph : DPh} (hp : s.proc a = .del ph) (hf : f.fine a = .none) (hc : s.contended a = true) {r} (hs : Radix.slipD s.st ph = some r)
    (he : stepD f.sys.st ph = r.map fun x => (x, f.sys.st)) :
    Good env X σ (do
      let r ← stepD f.sys.st ph
      return f.set a r.2 (.del r.1) .none) := by
  obtain ⟨ph', rfl, hgo⟩ := h.slipD hp hc hs
  rw [he]
  exact ⟨_, _, t, seen, rfl, hgo h.st (h.keepLocks (by rw [hf]; rfl) (by rw [hf]; rfl) rfl rfl) trivial⟩

/-- The single accesses of an update. -/
theorem accessU {ph : UPh} (hp : s.proc a = .upd ph) (hf : f.fine a = .none) (hcalm : Calm s (.run a) ∨ FCalm f (.step a))
    (hk : ph.plain = true ∨ (∃ op, ph = .gen op) ∨ ∃ op, ph = .par op) :
    Good env X σ (do
      let r ← stepU f.sys.st ph
      return f.set a r.2 (.upd r.1) .none) := by
  have hpf : f.sys.proc a = .upd ph := by rw [h.proc, hp]
  rcases hk with hk | ⟨op, rfl⟩ | ⟨op, rfl⟩
  · have e : stepU f.sys.st ph = (stepU s.st ph).map fun x => (x.1, x.2.relock f.sys.st.locks f.sys.st.rootLock) := by
      conv => lhs; rw [h.st]
      exact stepU_relock s.st _ _ hk
    have hs : ∀ ph' st', stepU s.st ph = .ok (ph', st') → st' = s.st := by
      intro ph' st' e
      cases ph with
      | start key => simp only [stepU] at e; split at e <;> (cases e; rfl)
      | ptr op => simp only [stepU] at e; split at e <;> (cases e; rfl)
      | _ => cases hk
    refine h.sameU hp hf ?_ ?_ ?_ ?_ hs
    · simp only [Calm, hp]
      cases ph <;> first | trivial | cases hk
    · rintro g op rfl; cases hk
    · rintro g op rfl; cases hk
    · rw [e]
      cases e2 : stepU s.st ph with
      | error e => rfl
      | ok x =>
        obtain ⟨ph', st'⟩ := x
        have := hs _ _ e2
        subst this
        simp only [Except.map]
        rw [← h.st]
  · rcases h.genCases hf (nodeAddr op.raw) with ⟨e, eg⟩ | ⟨hc, h2, e⟩
    · refine h.sameU hp hf (by simp only [Calm, hp]) (by simp) (by simp) ?_ ?_
      · simp only [stepU, e, bind, res_map_bind]
        rfl
      · intro ph' st' e2
        simp only [stepU] at e2
        cases hg : s.st.generation (nodeAddr op.raw) with
        | error e => rw [hg] at e2; cases e2
        | ok g => rw [hg] at e2; cases e2; rfl
    · refine h.slippedU hp hf hc (by simp only [Radix.slipU, if_pos h2]; rfl) ?_
      simp only [stepU, e, bind, res_map_bind, res_bind_map]
      rfl
  · by_cases h0 : op.parent = 0
    · refine h.sameU hp hf (by simp only [Calm, hp]; exact fun h => absurd h0 h) (by simp) (by simp) ?_ ?_
      · simp only [stepU, if_pos h0]; rfl
      · intro ph' st' e2
        simp only [stepU, if_pos h0] at e2
        cases e2; rfl
    · rcases h.genCases hf op.parent with ⟨e, eg⟩ | ⟨hc, h2, e⟩
      · refine h.sameU hp hf ?_ (by simp) (by simp) ?_ ?_
        · rcases hcalm with hcalm | hcalm
          · exact hcalm
          simp only [FCalm, hpf, Calm] at hcalm
          simp only [Calm, hp]
          exact fun h1 h2 => h.safe (hcalm h1 (eg.trans h2))
        · simp only [stepU, if_neg h0, e, bind, res_map_bind]
          congr 1
          funext g
          split <;> rfl
        · intro ph' st' e2
          simp only [stepU, if_neg h0] at e2
          cases hg : s.st.generation op.parent with
          | error e => rw [hg] at e2; cases e2
          | ok g =>
            rw [hg] at e2
            simp only [bind, Except.bind] at e2
            split at e2 <;> (cases e2; rfl)
      · refine h.slippedU hp hf hc (by simp only [Radix.slipU, if_pos (show op.parent ≠ 0 ∧ _ from ⟨h0, h2⟩)]; rfl) ?_
        simp only [stepU, if_neg h0, e, bind, res_map_bind, res_bind_map]
        congr 1
        funext g
        split <;> rfl

/-- The single accesses of a delete. -/
theorem accessD {ph : DPh} (hp : s.proc a = .del ph) (hf : f.fine a = .none) (hcalm : Calm s (.run a) ∨ FCalm f (.step a))
    (hk : ph.plain = true ∨ (∃ op, ph = .gen op) ∨ (∃ op, ph = .par op) ∨ ∃ cur p o plen, ph = .cgen cur p o plen) :
    Good env X σ (do
      let r ← stepD f.sys.st ph
      return f.set a r.2 (.del r.1) .none) := by
  have hpf : f.sys.proc a = .del ph := by rw [h.proc, hp]
  rcases hk with hk | ⟨op, rfl⟩ | ⟨op, rfl⟩ | ⟨cur, p, o, plen, rfl⟩
  · have e : stepD f.sys.st ph = (stepD s.st ph).map fun x => (x.1, x.2.relock f.sys.st.locks f.sys.st.rootLock) := by
      conv => lhs; rw [h.st]
      exact stepD_relock s.st _ _ hk
    have hs : ∀ ph' st', stepD s.st ph = .ok (ph', st') → st' = s.st := by
      intro ph' st' e
      cases ph with
      | start key =>
        simp only [stepD] at e
        split at e
        · cases e; rfl
        · split at e
          · cases hk : keyAt key 0 with
            | error e' => rw [hk] at e; cases e
            | ok k =>
              rw [hk] at e
              simp only [bind, Except.bind] at e
              split at e <;> (cases e; rfl)
          · cases e; rfl
      | ptr op => simp only [stepD] at e; split at e <;> (cases e; rfl)
      | other cur p plen =>
        simp only [stepD] at e
        split at e
        · cases hk : cur.newLeafKey (s.st.mem p) with
          | error e' => rw [hk] at e; cases e
          | ok k => rw [hk] at e; cases e; rfl
        · cases e; rfl
      | cptr cur p o plen => simp only [stepD] at e; split at e <;> (cases e; rfl)
      | _ => cases hk
    refine h.sameD hp hf ?_ ?_ ?_ ?_ ?_ hs
    · simp only [Calm, hp]
      cases ph <;> first | trivial | cases hk
    · rintro g rfl; cases hk
    · rintro g op rfl; cases hk
    · rintro g rfl; cases hk
    · rw [e]
      cases e2 : stepD s.st ph with
      | error e => rfl
      | ok x =>
        obtain ⟨ph', st'⟩ := x
        have := hs _ _ e2
        subst this
        simp only [Except.map]
        rw [← h.st]
  · rcases h.genCases hf (nodeAddr op.op.raw) with ⟨e, eg⟩ | ⟨hc, h2, e⟩
    · refine h.sameD hp hf (by simp only [Calm, hp]) (by simp) (by simp) (by simp) ?_ ?_
      · simp only [stepD, e, bind, res_map_bind]
        rfl
      · intro ph' st' e2
        simp only [stepD] at e2
        cases hg : s.st.generation (nodeAddr op.op.raw) with
        | error e => rw [hg] at e2; cases e2
        | ok g => rw [hg] at e2; cases e2; rfl
    · refine h.slippedD hp hf hc (by simp only [Radix.slipD, if_pos h2]; rfl) ?_
      simp only [stepD, e, bind, res_map_bind, res_bind_map]
      rfl
  · by_cases h0 : op.op.parent = 0
    · refine h.sameD hp hf (by simp only [Calm, hp]; exact fun h => absurd h0 h) (by simp) (by simp) (by simp) ?_ ?_
      · simp only [stepD, if_pos h0]; rfl
      · intro ph' st' e2
        simp only [stepD, if_pos h0] at e2
        cases e2; rfl
    · rcases h.genCases hf op.op.parent with ⟨e, eg⟩ | ⟨hc, h2, e⟩
      · refine h.sameD hp hf ?_ (by simp) (by simp) (by simp) ?_ ?_
        · rcases hcalm with hcalm | hcalm
          · exact hcalm
          simp only [FCalm, hpf, Calm] at hcalm
          simp only [Calm, hp]
          exact fun h1 h2 => h.safe (hcalm h1 (eg.trans h2))
        · simp only [stepD, if_neg h0, e, bind, res_map_bind]
          congr 1
          funext g
          split <;> rfl
        · intro ph' st' e2
          simp only [stepD, if_neg h0] at e2
          cases hg : s.st.generation op.op.parent with
          | error e => rw [hg] at e2; cases e2
          | ok g =>
            rw [hg] at e2
            simp only [bind, Except.bind] at e2
            split at e2 <;> (cases e2; rfl)
      · refine h.slippedD hp hf hc (by simp only [Radix.slipD, if_pos (show op.op.parent ≠ 0 ∧ _ from ⟨h0, h2⟩)]; rfl) ?_
        simp only [stepD, if_neg h0, e, bind, res_map_bind, res_bind_map]
        congr 1
        funext g
        split <;> rfl
  · rcases h.genCases hf cur.op.child with ⟨e, eg⟩ | ⟨hc, h2, e⟩
    · refine h.sameD hp hf (by simp only [Calm, hp]) (by simp) (by simp) (by simp) ?_ ?_
      · simp only [stepD, e, bind, res_map_bind]
        rfl
      · intro ph' st' e2
        simp only [stepD] at e2
        cases hg : s.st.generation cur.op.child with
        | error e => rw [hg] at e2; cases e2
        | ok g => rw [hg] at e2; cases e2; rfl
    · refine h.slippedD hp hf hc (by simp only [Radix.slipD, if_pos h2]; rfl) ?_
      simp only [stepD, e, bind, res_map_bind, res_bind_map]
      rfl

end FRelX
end
end Radix
