import Verif.TornSpec
import Verif.Sys.FineMain
/-!
# What is copied does not change while it is copied
-/
set_option autoImplicit false
namespace Radix
open T

/-! ## The steps that change no word -/

def KeepMem (st st' : St) : Prop := st'.mem = st.mem

theorem KeepMem.trans {a b c : St} (h : KeepMem a b) (h' : KeepMem b c) : KeepMem a c := Eq.trans h' h

theorem lockLeafRoot_keepMem {st st' : St} {w : Word} {b : Bool} (h : st.lockLeafRoot w = (b, st')) : KeepMem st st' := by
  unfold St.lockLeafRoot at h
  repeat' split at h
  all_goals (cases h; exact rfl)

theorem lockNodes2_keepMem {st st' : St} {node parent : Nat} {ng pg : Int} {b : Bool} (h : st.lockNodes2 node ng parent pg = (b, st')) :
    KeepMem st st' := by
  rcases lockNodes2_takes h with ⟨_, h, _⟩ | ⟨_, h⟩ <;> (rw [h]; exact rfl)

theorem lockNodes3_keepMem {st st' : St} {child node parent : Nat} {cg ng pg : Int} {b : Bool}
    (h : st.lockNodes3 child cg node ng parent pg = (b, st')) : KeepMem st st' := by
  rcases lockNodes3_takes h with ⟨_, h, _⟩ | ⟨_, h⟩ <;> (rw [h]; exact rfl)

theorem stepU_keepMem {st st' : St} {ph ph' : UPh} (h : stepU st ph = .ok (ph', st')) : KeepMem st st' := by
  cases ph with
  | start key =>
    simp only [stepU] at h
    split at h <;> (cases h; exact rfl)
  | root key root =>
    simp only [stepU] at h
    split at h
    · rename_i e
      cases h; exact lockLeafRoot_keepMem e
    · rename_i e
      obtain ⟨k, _, h⟩ := bind_ok h
      repeat' split at h
      all_goals (cases h; exact lockLeafRoot_keepMem e)
  | gen op =>
    simp only [stepU] at h
    obtain ⟨g, _, h⟩ := bind_ok h
    cases h; exact rfl
  | ptr op =>
    simp only [stepU] at h
    split at h <;> (cases h; exact rfl)
  | par op =>
    simp only [stepU] at h
    split at h
    · cases h; exact rfl
    · obtain ⟨g, _, h⟩ := bind_ok h
      split at h <;> (cases h; exact rfl)
  | body op =>
    simp only [stepU] at h
    obtain ⟨g, _, h⟩ := bind_ok h
    cases h; exact rfl
  | lock f op =>
    simp only [stepU] at h
    split at h <;> (rename_i e; cases h; exact lockNodes2_keepMem e)
  | held f op => cases h; exact rfl
  | tail r tl => cases h; exact rfl

theorem stepD_keepMem {st st' : St} {ph ph' : DPh} (h : stepD st ph = .ok (ph', st')) : KeepMem st st' := by
  cases ph with
  | start key =>
    simp only [stepD] at h
    split at h
    · cases h; exact rfl
    · split at h
      · obtain ⟨k, _, h⟩ := bind_ok h
        split at h <;> (cases h; exact rfl)
      · cases h; exact rfl
  | root key root =>
    simp only [stepD] at h
    split at h <;> (rename_i e; cases h; exact lockLeafRoot_keepMem e)
  | gen cur =>
    simp only [stepD] at h
    obtain ⟨g, _, h⟩ := bind_ok h
    cases h; exact rfl
  | ptr cur =>
    simp only [stepD] at h
    split at h <;> (cases h; exact rfl)
  | par cur =>
    simp only [stepD] at h
    split at h
    · cases h; exact rfl
    · obtain ⟨g, _, h⟩ := bind_ok h
      split at h <;> (cases h; exact rfl)
  | body cur =>
    simp only [stepD] at h
    obtain ⟨g, _, h⟩ := bind_ok h
    cases h; exact rfl
  | lock cur =>
    simp only [stepD] at h
    split at h <;> (rename_i e; cases h; exact lockNodes2_keepMem e)
  | other cur p plen =>
    simp only [stepD] at h
    split at h
    · obtain ⟨g, _, h⟩ := bind_ok h
      cases h; exact rfl
    · cases h; exact rfl
  | cgen cur p other plen =>
    simp only [stepD] at h
    obtain ⟨g, _, h⟩ := bind_ok h
    cases h; exact rfl
  | cptr cur p other plen =>
    simp only [stepD] at h
    split at h <;> (cases h; exact rfl)
  | lock3 cur other plen =>
    simp only [stepD] at h
    split at h
    · rename_i e; cases h; exact lockNodes3_keepMem e
    · rename_i e
      obtain ⟨r1, _, h⟩ := bind_ok h
      obtain ⟨d, _, h⟩ := bind_ok h
      obtain ⟨r2, _, h⟩ := bind_ok h
      cases h
      exact lockNodes3_keepMem e
  | miss key => cases h; exact rfl
  | held cur => cases h; exact rfl
  | tail r tl => cases h; exact rfl

theorem unlockNode_keepMem {st st' : St} {n : Nat} (h : st.unlockNode n = .ok st') : KeepMem st st' := by
  unfold St.unlockNode at h
  split at h
  · cases h; exact rfl
  · cases h

theorem unlockNodes2_keepMem {st st' : St} {n p : Nat} (h : st.unlockNodes2 n p = .ok st') : KeepMem st st' := by
  unfold St.unlockNodes2 at h
  split at h
  · exact unlockNode_keepMem h
  · obtain ⟨s1, h1, h⟩ := bind_ok h
    split at h
    · exact (unlockNode_keepMem h1).trans (unlockNode_keepMem h)
    · cases h; exact unlockNode_keepMem h1

theorem unlockNodes3_keepMem {st st' : St} {c n p : Nat} (h : st.unlockNodes3 c n p = .ok st') : KeepMem st st' := by
  unfold St.unlockNodes3 at h
  split at h
  · exact unlockNodes2_keepMem h
  · obtain ⟨s1, h1, h⟩ := bind_ok h
    split at h <;> simp only at h <;> split at h <;> obtain ⟨s2, h2, h⟩ := bind_ok h
    · exact ((unlockNode_keepMem h1).trans (unlockNode_keepMem h2)).trans (unlockNode_keepMem h)
    · cases h2
      exact (unlockNode_keepMem h1).trans (unlockNode_keepMem h)
    · cases h
      exact (unlockNode_keepMem h1).trans (unlockNode_keepMem h2)
    · cases h2
      cases h
      exact unlockNode_keepMem h1

theorem recycle_keepMem {st st' : St} {a n sl : Nat} (h : st.recycle a n sl = .ok st') : KeepMem st st' := by
  unfold St.recycle at h
  simp only at h
  repeat' split at h
  all_goals first | (cases h; exact rfl) | cases h

theorem unlockWords_keepMem {l : List Nat} : ∀ {st st' : St} {done : List Nat}, st.unlockWords done l = .ok st' → KeepMem st st' := by
  induction l with
  | nil => intro st st' done h; cases h; exact rfl
  | cons n l ih =>
    intro st st' done h
    unfold St.unlockWords at h
    split at h
    · obtain ⟨s1, h1, h⟩ := bind_ok h
      exact (unlockNode_keepMem h1).trans (ih h)
    · exact ih h

theorem unlockBy_keepMem {st st' : St} {u : Unlock} (h : st.unlockBy u = .ok st') : KeepMem st st' := by
  unfold St.unlockBy at h
  split at h
  · cases h; exact rfl
  · cases h; exact rfl
  · exact unlockNodes2_keepMem h
  · exact unlockNodes3_keepMem h
  · exact unlockWords_keepMem h


theorem runTail_keepMem {st st' : St} {a : Nat} {tl : Tail} (h : st.runTail a tl = .ok st') : KeepMem st st' := by
  unfold St.runTail at h
  obtain ⟨s1, h1, h⟩ := bind_ok h
  have k1 := unlockBy_keepMem h1
  split at h
  · obtain ⟨s2, h2, h⟩ := bind_ok h
    cases h2
    cases h
    exact k1.trans rfl
  · obtain ⟨s2, h2, h⟩ := bind_ok h
    cases h
    exact (k1.trans (recycle_keepMem h2)).trans rfl

theorem exec_run_keepMem {fetch : Word → Key} {s s' : Sys} {a : Nat} {ev : Ev} (h : exec fetch s (.run a) = some (.ok (s', ev))) :
    s'.st.mem = s.st.mem := by
  simp only [exec] at h
  split at h
  all_goals first
    | (cases h; done)
    | skip
  · injection h with h
    obtain ⟨⟨ph', st'⟩, h1, h⟩ := bind_ok h
    cases h
    exact stepU_keepMem h1
  · injection h with h
    obtain ⟨⟨ph', st'⟩, h1, h⟩ := bind_ok h
    cases h
    exact stepD_keepMem h1
  · injection h with h
    obtain ⟨ph', h1, h⟩ := bind_ok h
    cases h
    rfl

theorem cas_keepMem (f : FSys) (a : Nat) (again won : Proc) (wonAt : List (Nat × Int) → FPh) (todo got : List (Nat × Int)) :
    (f.cas a again won wonAt todo got).sys.st.mem = f.sys.st.mem := by
  unfold FSys.cas
  repeat' split
  all_goals rfl

theorem casFirst_keepMem (f : FSys) (a : Nat) (again won : Proc) (wonAt : List (Nat × Int) → FPh) (req : LockReq) :
    (f.casFirst a again won wonAt req).sys.st.mem = f.sys.st.mem := by
  unfold FSys.casFirst
  split
  · rfl
  · exact cas_keepMem _ _ _ _ _ _ _

/-- An access of a prepare or a lookup. -/
theorem fstep_keepMem {fetch : Word → Key} {f f' : FSys} {a : Nat} (h : fstep fetch f a = some (.ok f')) : f'.sys.st.mem = f.sys.st.mem := by
  unfold fstep at h
  have hU : ∀ {P}, f.readU a P = .ok f' → f'.sys.st.mem = f.sys.st.mem := by
    intro P h
    unfold FSys.readU at h
    split at h
    · obtain ⟨ph, _, h⟩ := bind_ok h; cases h; rfl
    · cases h; rfl
  have hD : ∀ {P}, f.readD a P = .ok f' → f'.sys.st.mem = f.sys.st.mem := by
    intro P h
    unfold FSys.readD at h
    split at h
    · obtain ⟨ph, _, h⟩ := bind_ok h; cases h; rfl
    · cases h; rfl
  have hM : ∀ {got P}, f.readM a got P = .ok f' → f'.sys.st.mem = f.sys.st.mem := by
    intro got P h
    unfold FSys.readM at h
    split at h
    · obtain ⟨ph, _, h⟩ := bind_ok h; cases h; rfl
    · cases h; rfl
  split at h
  all_goals first
    | (cases h; done)
    | (split at h <;> (cases h; rfl))
    | (cases h; rfl)
    | (injection h with h; exact hU h)
    | (injection h with h; exact hD h)
    | (injection h with h; exact hM h)
    | (cases h; exact casFirst_keepMem _ _ _ _ _ _)
    | (cases h; exact cas_keepMem _ _ _ _ _ _ _)
    | skip
  · split at h
    · injection h with h
      obtain ⟨ph, _, h⟩ := bind_ok h; cases h; rfl
    · cases h; rfl
  · cases hx : exec fetch f.sys (.run a) with
    | none => rw [hx] at h; cases h
    | some x =>
      rw [hx] at h
      cases x with
      | error e => cases h
      | ok x =>
        obtain ⟨s', ev⟩ := x
        cases h
        exact exec_run_keepMem hx

theorem cas_other (f : FSys) (a : Nat) (again won : Proc) (wonAt : List (Nat × Int) → FPh) (todo got : List (Nat × Int)) {b : Nat} (hb : b ≠ a) :
    (f.cas a again won wonAt todo got).sys.proc b = f.sys.proc b := by
  unfold FSys.cas
  repeat' split
  all_goals exact Sys.set_other _ _ _ _ hb

theorem casFirst_other (f : FSys) (a : Nat) (again won : Proc) (wonAt : List (Nat × Int) → FPh) (req : LockReq) {b : Nat} (hb : b ≠ a) :
    (f.casFirst a again won wonAt req).sys.proc b = f.sys.proc b := by
  unfold FSys.casFirst
  split
  · exact Sys.set_other _ _ _ _ hb
  · exact cas_other _ _ _ _ _ _ _ hb

theorem exec_run_other {fetch : Word → Key} {s s' : Sys} {a b : Nat} {ev : Ev} (hb : b ≠ a) (h : exec fetch s (.run a) = some (.ok (s', ev))) :
    s'.proc b = s.proc b := by
  simp only [exec] at h
  split at h
  all_goals first
    | (cases h; done)
    | skip
  all_goals
    injection h with h
    obtain ⟨_, h1, h⟩ := bind_ok h
    cases h
    exact Sys.set_other _ _ _ _ hb

/-- An access of another allocator. -/
theorem fstep_other {fetch : Word → Key} {f f' : FSys} {a b : Nat} (hb : b ≠ a) (h : fstep fetch f a = some (.ok f')) :
    f'.sys.proc b = f.sys.proc b := by
  unfold fstep at h
  have hs : ∀ st p ph, (f.set a st p ph).sys.proc b = f.sys.proc b := fun _ _ _ => Sys.set_other _ _ _ _ hb
  have hU : ∀ {P}, f.readU a P = .ok f' → f'.sys.proc b = f.sys.proc b := by
    intro P h
    unfold FSys.readU at h
    split at h
    · obtain ⟨ph, _, h⟩ := bind_ok h; cases h; exact hs _ _ _
    · cases h; exact hs _ _ _
  have hD : ∀ {P}, f.readD a P = .ok f' → f'.sys.proc b = f.sys.proc b := by
    intro P h
    unfold FSys.readD at h
    split at h
    · obtain ⟨ph, _, h⟩ := bind_ok h; cases h; exact hs _ _ _
    · cases h; exact hs _ _ _
  have hM : ∀ {got P}, f.readM a got P = .ok f' → f'.sys.proc b = f.sys.proc b := by
    intro got P h
    unfold FSys.readM at h
    split at h
    · obtain ⟨ph, _, h⟩ := bind_ok h; cases h; exact hs _ _ _
    · cases h; exact hs _ _ _
  split at h
  all_goals first
    | (cases h; done)
    | (split at h <;> (cases h; exact hs _ _ _))
    | (cases h; exact hs _ _ _)
    | (injection h with h; exact hU h)
    | (injection h with h; exact hD h)
    | (injection h with h; exact hM h)
    | (cases h; exact casFirst_other _ _ _ _ _ _ hb)
    | (cases h; exact cas_other _ _ _ _ _ _ _ hb)
    | skip
  · split at h
    · injection h with h
      obtain ⟨ph, _, h⟩ := bind_ok h; cases h; exact hs _ _ _
    · cases h; exact hs _ _ _
  · cases hx : exec fetch f.sys (.run a) with
    | none => rw [hx] at h; cases h
    | some x =>
      rw [hx] at h
      cases x with
      | error e => cases h
      | ok x =>
        obtain ⟨s', ev⟩ := x
        cases h
        exact exec_run_other hb hx

/-! ## What is copied belongs to a locked node -/

theorem UKnow.copies {env : Env} {t : T} {op : UpdOp} {q : Key} {pfx : List UInt8} {big : Bool} {ch : UInt8 → T} {found : Bool} {x : Nat}
    (h : UKnow env t op q pfx big ch) (hx : (Proc.upd (.held found op)).copies x) : InLocked t (lockList2 op.node op.parent) x := by
  refine ⟨q, op.node, pfx, big, ch, h.at', mem_lockList2 _ _, ?_⟩
  have h1 := h.data
  have h2 := h.slots
  have h3 := h.count
  unfold nodeSize
  unfold Proc.copies Proc.source at hx
  have hb : op.data.base = op.node := by rw [h1]
  simp only at hx
  split at hx <;> simp only [hb, h2, h3] at hx <;> omega

theorem PInv.copies {env : Env} {s : Sys} {t : T} {S : T → Prop} {p : Proc} {x : Nat} (h : PInv env s t S p) (hx : p.copies x) :
    InLocked t p.unl.list x := by
  cases p with
  | upd ph =>
    cases ph with
    | held found op =>
      obtain ⟨_, _, _, hk⟩ := h
      rcases hk with ⟨h1, _⟩ | ⟨h1, q, pfx, big, ch, h2, _⟩
      · exfalso
        unfold Proc.copies Proc.source at hx
        simp only at hx
        unfold UKind.isRoot at h1
        split at hx <;> rename_i e <;> simp only [e] at h1 hx <;> first | (cases h1; done) | omega
      · show InLocked t op.unl.list x
        rw [unl_of_kind h1]
        exact h2.copies hx
    | _ => exact absurd hx (by simp [Proc.copies, Proc.source])
  | del ph =>
    cases ph with
    | held cur =>
      obtain ⟨_, hk⟩ := h
      rcases hk with ⟨h1, _⟩ | ⟨h1, q, pfx, ch, h2, h3⟩ | ⟨h1, q, pfx, k, k2, lk, lv, pfx2, big2, kids, h2, h3, h4, h5, h6⟩ | ⟨h1, _⟩
      · exact absurd hx (by simp [Proc.copies, Proc.source, h1])
      · rcases h1 with h1 | h1
        · show InLocked t cur.op.unl.list x
          have hl : cur.op.unl.list = lockList2 cur.op.node cur.op.parent := by simp [DelOp.unl, h1, Unlock.list]
          rw [hl]
          refine ⟨q, cur.op.node, pfx, false, ch, h2.at', mem_lockList2 _ _, ?_⟩
          simp only [Proc.copies, Proc.source, h1] at hx
          rcases h2.kind with ⟨_, k, lk, lv, _, _, _, e1, _, _, e2⟩ | ⟨e, _⟩
          · have hb : cur.op.data.base = cur.op.node := by rw [e2]
            rw [hb, e1, h2.slots] at hx
            simp only [nodeSize, cnt, Bool.false_eq_true, if_false]
            omega
          · rw [h1] at e; cases e
        · exact absurd hx (by simp [Proc.copies, Proc.source, h1])
      · show InLocked t cur.op.unl.list x
        have hl : cur.op.unl.list = lockList3 cur.op.child cur.op.node cur.op.parent := by simp [DelOp.unl, h1, Unlock.list]
        rw [hl]
        have hat : At t (q ++ pfx ++ [k2]) (.node cur.op.child pfx2 big2 kids) := by
          have := h2.at'.child k2
          rwa [ch2_snd] at this
        refine ⟨_, _, pfx2, big2, kids, hat, child_mem3, ?_⟩
        simp only [Proc.copies, Proc.source, h1] at hx
        have hb : cur.op.data.base = cur.op.child := by rw [h6]
        rw [hb, h2.count, h4] at hx
        unfold nodeSize
        omega
      · exact absurd hx (by simp [Proc.copies, Proc.source, h1])
    | _ => exact absurd hx (by simp [Proc.copies, Proc.source])
  | _ => exact absurd hx (by simp [Proc.copies, Proc.source])

theorem InLocked.cover {t : T} {L : List Nat} {x : Nat} (h : InLocked t L x) : 0 < t.cover x := by
  obtain ⟨q, n, pfx, big, ch, h1, _, h2, h3⟩ := h
  exact h1.cover_node h2 h3

/-! ## One step -/

section
variable {env : Env} {f f' : FSys} {s : Sys} {σ : Spec} {t : T} {seen : Nat → T → Prop} {a b x : Nat} {ev : Ev}

theorem map_fine_ok {g : Nat → FPh} {y : Option (Res (Sys × Ev))}
    (h : y.map (fun r => do let r ← r; return ((⟨r.1, g⟩ : FSys), r.2)) = some (.ok (f', ev))) :
    ∃ s', y = some (.ok (s', ev)) ∧ f' = ⟨s', g⟩ := by
  cases y with
  | none => cases h
  | some r =>
    cases r with
    | error e => cases h
    | ok r => cases h; exact ⟨_, rfl, rfl⟩

/-- Building changes no word of the tree. -/
theorem FRel.build_keeps (h : FRel env Calm f s σ t seen) {value : Word} (hall : env.Allowed f.sys (.build a value)) {s' : Sys}
    (he : exec env.fetch f.sys (.build a value) = some (.ok (s', ev))) (hx : 0 < t.cover x) : s'.st.mem x = f.sys.st.mem x := by
  have hall' : env.Allowed s (.build a value) := by rw [h.sys] at hall; exact hall
  have e := exec_relock env.fetch s f.sys.st.locks f.sys.st.rootLock (act := .build a value) trivial
  rw [← h.sys, he] at e
  have hfree : ∀ {st' N'}, AllocEff a s.st st' s.pend N' → st'.mem x = s.st.mem x := by
    intro st' N' heff
    refine heff.mem x ?_
    have h2 := h.inv.mem.core.sep x
    have h3 := freeP_le (availNow s.st) s.st x
    omega
  have hm : f.sys.st.mem = s.st.mem := by rw [h.st]; rfl
  rw [hm]
  cases hx : exec env.fetch s (.build a value) with
  | none => rw [hx] at e; cases e
  | some r =>
    rw [hx] at e
    cases r with
    | error e' => cases e
    | ok r =>
      obtain ⟨s2, ev2⟩ := r
      cases e
      show s2.st.mem x = _
      simp only [exec] at hx
      split at hx
      · rename_i found op hp
        injection hx with hx
        obtain ⟨⟨cm, st'⟩, h1, hx⟩ := bind_ok hx
        cases hx
        rcases buildU_inv h.inv hp hall' with h2 | ⟨cm2, st2, h2, heff, _⟩
        · rw [h2] at h1; cases h1
        · rw [h2] at h1; cases h1
          exact hfree heff
      · rename_i cur hp
        split at hx
        · cases hx
        injection hx with hx
        obtain ⟨⟨cm, st'⟩, h1, hx⟩ := bind_ok hx
        cases hx
        rcases buildD_inv h.inv hp hall' with h2 | ⟨cm2, st2, h2, heff, _⟩
        · rw [h2] at h1; cases h1
        · rw [h2] at h1; cases h1
          exact hfree heff
      · cases hx

/-- While an operation is prepared, no other one changes a word that it will copy, except a `deleteLeaf256`. -/
theorem FRel.copy_keeps (h : FRel env Calm f s σ t seen) {act : FAct} (hall : env.Allowed f.sys act.act)
    (he : Radix.fexec env.fetch f act = some (.ok (f', ev))) (hx : (f.sys.proc b).copies x) (hb : ∀ v, act ≠ .build b v) (hq : act ≠ .quit b)
    (hd : ∀ a cur cm, act = .commit a → f.sys.proc a = .delB cur cm → cur.op.kind = .deleteLeaf256 →
      f.sys.st.load cur.op.leafPtr = cur.op.raw → cur.op.leafPtr ≠ .slot x) :
    f'.sys.proc b = f.sys.proc b ∧ f'.sys.st.mem x = f.sys.st.mem x := by
  have hpr := h.proc
  have hlock : InLocked t (s.proc b).unl.list x := (h.inv.proc b).copies (by rw [← hpr]; exact hx)
  have hcov := hlock.cover
  -- the place of `b`
  have hheld : (∃ fo op, f.sys.proc b = .upd (.held fo op)) ∨ ∃ cur, f.sys.proc b = .del (.held cur) := by
    cases hp : f.sys.proc b with
    | upd ph =>
      rw [hp] at hx
      cases ph with
      | held fo op => exact .inl ⟨fo, op, rfl⟩
      | _ => exact absurd hx (by simp [Proc.copies, Proc.source])
    | del ph =>
      rw [hp] at hx
      cases ph with
      | held cur => exact .inr ⟨cur, rfl⟩
      | _ => exact absurd hx (by simp [Proc.copies, Proc.source])
    | _ => rw [hp] at hx; exact absurd hx (by simp [Proc.copies, Proc.source])
  have hfine : f.fine b = .none := by
    have := h.ok b
    rw [← hpr] at this
    refine this.resting ?_
    rcases hheld with ⟨_, _, e⟩ | ⟨_, e⟩ <;> rw [e] <;> rfl
  cases act with
  | step a =>
    simp only [Radix.fexec] at he
    cases hs : Radix.fstep env.fetch f a with
    | none => rw [hs] at he; cases he
    | some r =>
      rw [hs] at he
      cases r with
      | error e => cases he
      | ok f2 =>
        cases he
        by_cases hab : b = a
        · subst hab
          unfold Radix.fstep at hs
          rcases hheld with ⟨_, _, e⟩ | ⟨_, e⟩ <;> simp [hfine, e, exec] at hs
        · exact ⟨fstep_other hab hs, congrFun (fstep_keepMem hs) x⟩
  | build a v =>
    simp only [Radix.fexec, FAct.act] at he
    obtain ⟨s', hs, rfl⟩ := map_fine_ok he
    have hab : b ≠ a := fun e => hb v (by rw [e])
    refine ⟨?_, h.build_keeps hall hs hcov⟩
    simp only [exec] at hs
    repeat' split at hs
    all_goals first | (cases hs; done) | skip
    all_goals
      injection hs with hs
      obtain ⟨_, h1, hs⟩ := bind_ok hs
      cases hs
      exact Sys.set_other _ _ _ _ hab
  | commit a =>
    simp only [Radix.fexec, FAct.act] at he
    obtain ⟨s', hs, rfl⟩ := map_fine_ok he
    simp only [exec] at hs
    have hP := h.inv.proc a
    rw [← hpr] at hP hlock
    split at hs
    · rename_i op value cm hp
      have hab : b ≠ a := by
        rintro rfl
        rcases hheld with ⟨_, _, e⟩ | ⟨_, e⟩ <;> (rw [e] at hp; cases hp)
      cases hs
      refine ⟨Sys.set_other _ _ _ _ hab, ?_⟩
      apply Decidable.byContradiction
      intro hne
      have hptr := commit_mem _ cm hne
      rw [hp] at hP
      obtain ⟨_, q, pfx, big, ch, h2, h3⟩ := hP
      refine h.inv.inLocked (a := a) hab ?_ (by rw [← hpr]; exact hlock)
      rw [← hpr, hp]
      exact h2.target h3 hptr
    · rename_i cur cm hp
      have hab : b ≠ a := by
        rintro rfl
        rcases hheld with ⟨_, _, e⟩ | ⟨_, e⟩ <;> (rw [e] at hp; cases hp)
      cases hs
      refine ⟨Sys.set_other _ _ _ _ hab, ?_⟩
      apply Decidable.byContradiction
      intro hne
      have hptr := commit_mem _ cm hne
      rw [hp] at hP
      by_cases hk : cur.op.kind = .deleteLeaf256
      · obtain ⟨_, q, pfx, ch, big2, kids, h2, _⟩ := hP
        unfold DBlt at h2
        simp only [hk] at h2
        rw [h2] at hptr
        refine hd a cur cm rfl hp hk ?_ hptr
        apply Decidable.byContradiction
        intro hl
        apply hne
        rw [h2]
        simp only [Sys.set, St.commit, St.cas]
        rw [if_neg hl]
      · refine h.inv.inLocked (a := a) hab ?_ (by rw [← hpr]; exact hlock)
        rw [← hpr, hp]
        exact PInvDB.target hP hk hptr
    · cases hs
  | block =>
    simp only [Radix.fexec, FAct.act] at he
    obtain ⟨s', hs, rfl⟩ := map_fine_ok he
    simp only [exec] at hs
    injection hs with hs
    obtain ⟨st', h1, hs⟩ := bind_ok hs
    cases hs
    refine ⟨rfl, ?_⟩
    unfold St.blockStep at h1
    split at h1
    · cases h1; rfl
    · split at h1
      · cases h1
        show (if _ then _ else _) = _
        rw [if_neg]
        intro e
        obtain ⟨q, n, pfx, big, ch, h1, _, h2, h3⟩ := hlock
        have hin := (h1.inBlocks h.inv.mem.core.inb).1
        have hba : f.sys.st.baNext = s.st.baNext := by rw [h.st]; rfl
        rw [hba] at e
        obtain ⟨_, g1, g2⟩ := hin
        revert e g1 g2
        generalize nodeSize pfx big ch = k at h3
        simp only [blockSlots]
        omega
      · cases h1
  | tail a =>
    simp only [Radix.fexec] at he
    split at he
    · obtain ⟨s', hs, rfl⟩ := map_fine_ok he
      simp only [exec] at hs
      split at hs
      all_goals first | (cases hs; done) | skip
      all_goals
        rename_i hp
        have hab : b ≠ a := by
          rintro rfl
          rcases hheld with ⟨_, _, e⟩ | ⟨_, e⟩ <;> (rw [e] at hp; cases hp)
        injection hs with hs
        obtain ⟨st', h1, hs⟩ := bind_ok hs
        cases hs
        exact ⟨Sys.set_other _ _ _ _ hab, congrFun (runTail_keepMem h1) x⟩
    · cases he
  | unlock a =>
    simp only [Radix.fexec, FAct.act] at he
    obtain ⟨s', hs, rfl⟩ := map_fine_ok he
    obtain ⟨_, ⟨b', tl, u, st', hp, hu, rfl⟩ | ⟨b', tl, u, st', hp, hu, rfl⟩⟩ := exec_unlock_ok hs
    all_goals
      have hab : b ≠ a := by
        rintro rfl
        rcases hheld with ⟨_, _, e⟩ | ⟨_, e⟩ <;> (rw [e] at hp; cases hp)
      refine ⟨Sys.set_other _ _ _ _ hab, ?_⟩
      rcases unlockOne_ok hu with ⟨_, _, rfl⟩ | ⟨n, l, _, _, _, _, rfl⟩ <;> rfl
  | begin a c =>
    simp only [Radix.fexec, FAct.act] at he
    obtain ⟨s', hs, rfl⟩ := map_fine_ok he
    simp only [exec] at hs
    repeat' split at hs
    all_goals first | (cases hs; done) | skip
    all_goals
      have hab : b ≠ a := by
        rintro rfl
        rcases hheld with ⟨_, _, e⟩ | ⟨_, e⟩ <;> simp_all
      cases hs
      exact ⟨Sys.set_other _ _ _ _ hab, rfl⟩
  | _ =>
    rename_i a
    all_goals
      simp only [Radix.fexec, FAct.act] at he
      obtain ⟨s', hs, rfl⟩ := map_fine_ok he
      simp only [exec] at hs
      repeat' split at hs
      all_goals first | (cases hs; done) | skip
      all_goals
        have hab : b ≠ a := by
          rintro rfl
          rcases hheld with ⟨_, _, e⟩ | ⟨_, e⟩ <;> simp_all
        cases hs
        exact ⟨Sys.set_other _ _ _ _ hab, rfl⟩

end

/-! ## Executions -/

theorem mem_of_lookup {l : List (Nat × Word)} {x : Nat} {w : Word} (h : l.lookup x = some w) : (x, w) ∈ l := by
  induction l with
  | nil => cases h
  | cons y l ih =>
    obtain ⟨y, v⟩ := y
    rw [List.lookup_cons] at h
    split at h
    · rename_i e
      rw [beq_iff_eq] at e
      cases h
      rw [e]
      exact List.mem_cons_self
    · exact List.mem_cons_of_mem _ (ih h)

theorem patch_eq {m : Mem} {l : List (Nat × Word)} (h : ∀ x w, (x, w) ∈ l → m x = w) : patch m l = m := by
  funext x
  unfold patch
  cases e : l.lookup x with
  | none => rfl
  | some w => exact (h x w (mem_of_lookup e)).symm

/-- The words loaded are still there. -/
def TSys.Loaded (τ : TSys) : Prop := ∀ a x w, (x, w) ∈ τ.got a → (τ.f.sys.proc a).copies x ∧ τ.f.sys.st.mem x = w

theorem TCalm.apart {τ : TSys} {act : FAct} (h : TCalm τ (.act act)) {b x : Nat} {w : Word} (hx : (x, w) ∈ τ.got b) :
    ∀ a cur cm, act = .commit a → τ.f.sys.proc a = .delB cur cm → cur.op.kind = .deleteLeaf256 →
      τ.f.sys.st.load cur.op.leafPtr = cur.op.raw → cur.op.leafPtr ≠ .slot x := by
  rintro a cur cm rfl hp hk hl e
  have := h.2
  simp only [hp] at this
  exact this hk hl x e b w hx

theorem FRel.copyOf {env : Env} {f : FSys} {s : Sys} {σ : Spec} {t : T} {seen : Nat → T → Prop} (h : FRel env Calm f s σ t seen) {b x : Nat}
    (hx : (f.sys.proc b).copies x) : 0 < t.cover x :=
  ((h.inv.proc b).copies (by rw [← h.proc]; exact hx)).cover

/-- A step that is not a load. -/
theorem TSys.step_rel {env : Env} {τ τ' : TSys} {s : Sys} {σ : Spec} {t : T} {seen : Nat → T → Prop} {act : FAct} {ev : Ev}
    (hF : FRel env Calm τ.f s σ t seen) (hl : τ.Loaded) (hall : env.Allowed τ.f.sys act.act)
    (hc : ∀ {b x w}, (x, w) ∈ τ.got b → ∀ a cur cm, act = .commit a → τ.f.sys.proc a = .delB cur cm → cur.op.kind = .deleteLeaf256 →
      τ.f.sys.st.load cur.op.leafPtr = cur.op.raw → cur.op.leafPtr ≠ .slot x)
    (he : texec env.fetch τ (.act act) = some (.ok (τ', ev))) : fexec env.fetch τ.f act = some (.ok (τ'.f, ev)) ∧ τ'.Loaded := by
  have main : ∀ {f'}, fexec env.fetch τ.f act = some (.ok (f', ev)) → (∀ b x w, (x, w) ∈ τ'.got b → (x, w) ∈ τ.got b ∧ (∀ v, act ≠ .build b v) ∧ act ≠ .quit b) →
      τ'.f = f' → τ'.Loaded := by
    intro f' h1 h2 h3 b x w hx
    obtain ⟨g1, g2, g3⟩ := h2 b x w hx
    obtain ⟨g4, g5⟩ := hl b x w g1
    obtain ⟨g6, g7⟩ := hF.copy_keeps hall h1 g4 g2 g3 (hc g1)
    rw [h3, g6, g7]
    exact ⟨g4, g5⟩
  by_cases hb : ∃ a v, act = .build a v
  · obtain ⟨a, v, rfl⟩ := hb
    have hp : τ.f.withMem (patch τ.f.sys.st.mem (τ.got a)) = τ.f := by
      rw [patch_eq fun x w hx => (hl a x w hx).2]; rfl
    simp only [texec, tbuild, hp] at he
    cases hx : fexec env.fetch τ.f (.build a v) with
    | none => rw [hx] at he; cases he
    | some r =>
      rw [hx] at he
      cases r with
      | error e => cases he
      | ok r =>
        obtain ⟨f', ev'⟩ := r
        have hm : f' = f'.withMem (fun x => if (f'.sys.proc a).fills x then f'.sys.st.mem x else
            if (τ.got a).any (fun y => y.1 == x) then τ.f.sys.st.mem x else f'.sys.st.mem x) := by
          have : (fun x => if (f'.sys.proc a).fills x then f'.sys.st.mem x else
              if (τ.got a).any (fun y => y.1 == x) then τ.f.sys.st.mem x else f'.sys.st.mem x) = f'.sys.st.mem := by
            funext x
            split
            · rfl
            · split
              · rename_i hy
                obtain ⟨⟨y, w⟩, h1, h2⟩ := List.any_eq_true.1 hy
                rw [beq_iff_eq] at h2
                simp only at h2
                subst h2
                have h3 := hx
                simp only [fexec, FAct.act] at h3
                obtain ⟨s', h4, rfl⟩ := map_fine_ok h3
                exact (hF.build_keeps hall h4 (hF.copyOf (hl a y w h1).1)).symm
              · rfl
          rw [this]; rfl
        have e : τ' = ⟨f', upd τ.got a []⟩ ∧ ev' = ev := by
          simp only [Option.map_some, bind, Except.bind, pure, Except.pure] at he
          rw [← hm] at he
          cases he
          exact ⟨rfl, rfl⟩
        obtain ⟨rfl, rfl⟩ := e
        refine ⟨rfl, main hx ?_ rfl⟩
        intro b x w hxw
        simp only at hxw
        by_cases hab : b = a
        · rw [hab, upd_same] at hxw; exact absurd hxw List.not_mem_nil
        · rw [upd_of_ne _ _ hab] at hxw
          exact ⟨hxw, (fun v e => hab (by injection e with e; exact e.symm)), (fun e => by cases e)⟩
  · have e : texec env.fetch τ (.act act) = (fexec env.fetch τ.f act).map fun r => do
        let r ← r
        return (⟨r.1, τ.gotAfter act⟩, r.2) := by
      cases act with
      | build a v => exact absurd ⟨a, v, rfl⟩ hb
      | _ => rfl
    rw [e] at he
    cases hx : fexec env.fetch τ.f act with
    | none => rw [hx] at he; cases he
    | some r =>
      rw [hx] at he
      cases r with
      | error e => cases he
      | ok r =>
        obtain ⟨f', ev'⟩ := r
        cases he
        refine ⟨rfl, main hx ?_ rfl⟩
        intro b x w hxw
        refine ⟨?_, (fun v e => hb ⟨b, v, e⟩), ?_⟩
        · simp only at hxw
          unfold TSys.gotAfter at hxw
          split at hxw
          · rename_i a
            by_cases hab : b = a
            · rw [hab, upd_same] at hxw; exact absurd hxw List.not_mem_nil
            · rwa [upd_of_ne _ _ hab] at hxw
          · exact hxw
        · rintro rfl
          simp only [TSys.gotAfter, upd_same] at hxw
          exact absurd hxw List.not_mem_nil

theorem TSys.step_fine {env : Env} {τ τ' : TSys} {σ : Spec} {act : FAct} {ev : Ev} (hf : FRun env FCalm τ.f σ) (hl : τ.Loaded)
    (hall : env.Allowed τ.f.sys act.act) (hc : TCalm τ (.act act)) (he : texec env.fetch τ (.act act) = some (.ok (τ', ev))) :
    fexec env.fetch τ.f act = some (.ok (τ'.f, ev)) ∧ τ'.Loaded := by
  obtain ⟨s, t, seen, hF⟩ := hf.rel
  exact TSys.step_rel hF hl hall (fun h => hc.apart h) he

theorem TSys.load_loaded {fetch : Word → Key} {τ τ' : TSys} {a x : Nat} {ev : Ev} (hl : τ.Loaded)
    (he : texec fetch τ (.load a x) = some (.ok (τ', ev))) : τ'.f = τ.f ∧ ev = .none ∧ τ'.Loaded := by
  simp only [texec] at he
  split at he
  · rename_i hx
    cases he
    refine ⟨rfl, rfl, fun b y w hy => ?_⟩
    simp only at hy
    by_cases hab : b = a
    · subst hab
      rw [upd_same] at hy
      rcases List.mem_append.1 hy with hy | hy
      · exact hl b y w hy
      · cases List.mem_singleton.1 hy
        exact ⟨hx, rfl⟩
    · rw [upd_of_ne _ _ hab] at hy
      exact hl b y w hy
  · cases he

/-- Copying word by word makes no difference, if the races of the code do not show. -/
theorem TRun.fine {env : Env} {τ : TSys} {σ : Spec} (h : TRun env TCalm τ σ) : FRun env FCalm τ.f σ ∧ τ.Loaded := by
  induction h with
  | init n => exact ⟨.init n, fun _ _ _ h => absurd h List.not_mem_nil⟩
  | reload _ hs ih => exact ⟨.reload ih.1 hs, fun _ _ _ h => absurd h List.not_mem_nil⟩
  | step _ hall hc he ih =>
    rename_i act _ ev _
    cases act with
    | act act =>
      obtain ⟨h1, h2⟩ := TSys.step_fine ih.1 ih.2 hall hc he
      exact ⟨.step ih.1 hall hc.1 h1, h2⟩
    | load a x =>
      obtain ⟨h1, rfl, h3⟩ := TSys.load_loaded ih.2 he
      exact ⟨by rw [h1]; exact ih.1, h3⟩

end Radix
