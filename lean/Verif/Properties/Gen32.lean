import Verif.Properties.Map
import Verif.Sys.LockInv
import Verif.Model.Gen32
/-!
# C58: generations of 32 bits
-/
set_option autoImplicit false
namespace Radix

/-! ## How far the lock words get -/

/-- Releasing locks: a word stays as it is, or it was odd and is increased by one. -/
def WordsReleased (l l' : Nat → Nat → Int) : Prop := ∀ b i, l' b i = l b i ∨ (l b i % 2 = 1 ∧ l' b i = l b i + 1)

theorem WordsReleased.of_eq {l l' : Nat → Nat → Int} (h : l' = l) : WordsReleased l l' := fun b i => .inl (by rw [h])

theorem WordsReleased.trans {l l' l'' : Nat → Nat → Int} (h : WordsReleased l l') (h' : WordsReleased l' l'') : WordsReleased l l'' := by
  intro b i
  rcases h b i with h | ⟨h1, h⟩ <;> rcases h' b i with g | ⟨g1, g⟩
  · exact .inl (by omega)
  · exact .inr (by omega)
  · exact .inr (by omega)
  · omega

theorem unlockNode_wordsReleased {st st' : St} {n : Nat} (h : st.unlockNode n = .ok st') : WordsReleased st.locks st'.locks := by
  unfold St.unlockNode at h
  split at h
  · rename_i ho
    cases h
    intro b i
    simp only [St.setGen]
    split
    · rename_i e
      refine .inr ?_
      have : st.gen n = st.locks b i := by rw [e.1, e.2]; rfl
      omega
    · exact .inl rfl
  · cases h

theorem unlockNodes2_wordsReleased {st st' : St} {n p : Nat} (h : st.unlockNodes2 n p = .ok st') : WordsReleased st.locks st'.locks := by
  unfold St.unlockNodes2 at h
  split at h
  · exact unlockNode_wordsReleased h
  · obtain ⟨st1, h1, h⟩ := bind_ok h
    split at h
    · exact (unlockNode_wordsReleased h1).trans (unlockNode_wordsReleased h)
    · cases h; exact unlockNode_wordsReleased h1

theorem unlockNodes3_wordsReleased {st st' : St} {c n p : Nat} (h : st.unlockNodes3 c n p = .ok st') : WordsReleased st.locks st'.locks := by
  unfold St.unlockNodes3 at h
  split at h
  · exact unlockNodes2_wordsReleased h
  · obtain ⟨st1, h1, h⟩ := bind_ok h
    have rest : ∀ {st2 : St}, (if (lockDiffer c p && lockDiffer c n) = true then st2.unlockNode c else pure st2) = .ok st' →
        WordsReleased st2.locks st'.locks := by
      intro st2 h
      split at h
      · exact unlockNode_wordsReleased h
      · cases h; exact .of_eq rfl
    refine (unlockNode_wordsReleased h1).trans ?_
    simp only at h
    split at h
    · obtain ⟨st2, h2, h⟩ := bind_ok h
      exact (unlockNode_wordsReleased h2).trans (rest h)
    · obtain ⟨st2, h2, h⟩ := bind_ok h
      cases h2
      exact rest h

theorem unlockWords_wordsReleased : ∀ {l : List Nat} {done : List Nat} {st st' : St}, st.unlockWords done l = .ok st' → WordsReleased st.locks st'.locks
  | [], done, st, st', h => by
    simp only [St.unlockWords] at h
    cases h; exact .of_eq rfl
  | n :: l, done, st, st', h => by
    simp only [St.unlockWords] at h
    split at h
    · obtain ⟨st1, h1, h⟩ := bind_ok h
      exact (unlockNode_wordsReleased h1).trans (unlockWords_wordsReleased h)
    · exact unlockWords_wordsReleased h

theorem unlockBy_wordsReleased {st st' : St} {u : Unlock} (h : st.unlockBy u = .ok st') : WordsReleased st.locks st'.locks := by
  cases u with
  | none => cases h; exact .of_eq rfl
  | root => cases h; exact .of_eq rfl
  | two n p => exact unlockNodes2_wordsReleased h
  | three c n p => exact unlockNodes3_wordsReleased h
  | words l => exact unlockWords_wordsReleased h

theorem unlockOne_wordsReleased {st st' : St} {u u' : Unlock} (h : st.unlockOne u = some (.ok (u', st'))) : WordsReleased st.locks st'.locks := by
  have key : ∀ {r : Option (Res (Unlock × St))}, (match u.plan with
      | [] => none
      | n :: l => some (do
          let st ← st.unlockNode n
          return (.words (l.filter fun m => lockDiffer m n), st))) = r → r = some (.ok (u', st')) → WordsReleased st.locks st'.locks := by
    intro r e e'
    subst e'
    split at e
    · cases e
    · injection e with e
      obtain ⟨st1, h1, e⟩ := bind_ok e
      cases e
      exact unlockNode_wordsReleased h1
  cases u with
  | root => cases h; exact .of_eq rfl
  | _ => exact key rfl h

theorem recycle_locks {st st' : St} {a n slots : Nat} (h : st.recycle a n slots = .ok st') : st'.locks = st.locks := by
  unfold St.recycle at h
  split at h
  · cases h; rfl
  · split at h
    · simp only at h
      split at h <;> (cases h; rfl)
    · cases h

theorem runTail_wordsReleased {st st' : St} {a : Nat} {tl : Tail} (h : st.runTail a tl = .ok st') : WordsReleased st.locks st'.locks := by
  unfold St.runTail at h
  obtain ⟨st1, h1, h⟩ := bind_ok h
  refine (unlockBy_wordsReleased h1).trans (.of_eq ?_)
  simp only at h
  split at h
  · obtain ⟨st2, h2, h⟩ := bind_ok h
    cases h2; cases h; rfl
  · obtain ⟨st2, h2, h⟩ := bind_ok h
    cases h
    exact recycle_locks (st' := st2) h2

theorem abortU_wordsReleased {st st' : St} {a : Nat} {op : UpdOp} (h : abortU st a op = .ok st') : WordsReleased st.locks st'.locks := by
  unfold abortU at h
  split at h
  all_goals first
    | (cases h; exact .of_eq rfl)
    | (obtain ⟨st1, h1, h⟩ := bind_ok h; cases h; exact unlockNodes2_wordsReleased (st' := st1) h1)

theorem abortD_wordsReleased {st st' : St} {a : Nat} {op : DelOp} (h : abortD st a op = .ok st') : WordsReleased st.locks st'.locks := by
  unfold abortD at h
  split at h
  all_goals first
    | (cases h; exact .of_eq rfl)
    | (obtain ⟨st1, h1, h⟩ := bind_ok h; cases h; exact unlockNodes2_wordsReleased (st' := st1) h1)
    | (obtain ⟨st1, h1, h⟩ := bind_ok h; cases h; exact unlockNodes3_wordsReleased (st' := st1) h1)

theorem bumpLocks_one (l : Nat → Nat → Int) (L : List Nat) (b i : Nat) : bumpLocks l L b i = l b i ∨ bumpLocks l L b i = l b i + 1 := by
  unfold bumpLocks
  split <;> simp

/-- Taking locks increases a word by one at most. -/
def WordsTaken (l l' : Nat → Nat → Int) : Prop := ∀ b i, l' b i = l b i ∨ l' b i = l b i + 1

theorem WordsTaken.of_eq {l l' : Nat → Nat → Int} (h : l' = l) : WordsTaken l l' := fun b i => .inl (by rw [h])

theorem lockNodes2_taken (st : St) (n : Nat) (ng : Int) (p : Nat) (pg : Int) :
    ((st.lockNodes2 n ng p pg).1 = true ∧ WordsTaken st.locks (st.lockNodes2 n ng p pg).2.locks) ∨
    st.lockNodes2 n ng p pg = (false, st) := by
  rcases lockNodes2_spec st n ng p pg with ⟨_, _, _, _, h⟩ | ⟨_, h⟩
  · rw [h]; exact .inl ⟨rfl, bumpLocks_one _ _⟩
  · exact .inr h

theorem lockNodes3_taken (st : St) (c : Nat) (cg : Int) (n : Nat) (ng : Int) (p : Nat) (pg : Int) :
    ((st.lockNodes3 c cg n ng p pg).1 = true ∧ WordsTaken st.locks (st.lockNodes3 c cg n ng p pg).2.locks) ∨
    st.lockNodes3 c cg n ng p pg = (false, st) := by
  by_cases hp : p = 0
  · have e : st.lockNodes3 c cg n ng p pg = st.lockNodes2 c cg n ng := by unfold St.lockNodes3; rw [if_pos hp]
    rw [e]
    exact lockNodes2_taken st c cg n ng
  · rcases lockNodes3_spec st c cg n ng p pg (fun h => absurd h hp) with ⟨_, _, _, _, _, _, h⟩ | ⟨_, h⟩
    · rw [h]; exact .inl ⟨rfl, bumpLocks_one _ _⟩
    · exact .inr h

theorem stepU_taken {st st' : St} {ph ph' : UPh} (h : stepU st ph = .ok (ph', st')) :
    st'.locks = st.locks ∨ ((Proc.upd ph').isPrepared = true ∧ WordsTaken st.locks st'.locks) := by
  cases ph with
  | lock found op =>
    simp only [stepU] at h
    rcases lockNodes2_taken st op.node op.nodeGen op.parent op.parentGen with ⟨h1, h2⟩ | h1
    · split at h
      · rename_i st1 e
        rw [e] at h2
        cases h; exact .inr ⟨rfl, h2⟩
      · rename_i st1 e
        rw [e] at h1; cases h1
    · rw [h1] at h
      cases h; exact .inl rfl
  | start key => simp only [stepU] at h; split at h <;> (cases h; exact .inl rfl)
  | root key root =>
    simp only [stepU, St.lockLeafRoot] at h
    left
    by_cases hr : st.rootLock = 0
    · rw [if_pos hr] at h
      by_cases he : st.root = root
      · rw [if_pos he] at h
        simp only at h
        obtain ⟨k, _, h⟩ := bind_ok h
        repeat' split at h
        all_goals (cases h; rfl)
      · rw [if_neg he] at h; cases h; rfl
    · rw [if_neg hr] at h; cases h; rfl
  | gen op => simp only [stepU] at h; obtain ⟨g, _, h⟩ := bind_ok h; cases h; exact .inl rfl
  | ptr op => simp only [stepU] at h; split at h <;> (cases h; exact .inl rfl)
  | par op =>
    simp only [stepU] at h
    split at h
    · cases h; exact .inl rfl
    · obtain ⟨g, _, h⟩ := bind_ok h
      split at h <;> (cases h; exact .inl rfl)
  | body op => simp only [stepU] at h; obtain ⟨g, _, h⟩ := bind_ok h; cases h; exact .inl rfl
  | held f op => cases h; exact .inl rfl
  | tail r tl => cases h; exact .inl rfl

theorem stepD_taken {st st' : St} {ph ph' : DPh} (h : stepD st ph = .ok (ph', st')) :
    st'.locks = st.locks ∨ ((Proc.del ph').isPrepared = true ∧ WordsTaken st.locks st'.locks) := by
  cases ph with
  | lock cur =>
    simp only [stepD] at h
    rcases lockNodes2_taken st cur.op.node cur.op.nodeGen cur.op.parent cur.op.parentGen with ⟨h1, h2⟩ | h1
    · split at h
      · rename_i st1 e
        rw [e] at h2
        cases h; exact .inr ⟨rfl, h2⟩
      · rename_i st1 e
        rw [e] at h1; cases h1
    · rw [h1] at h
      cases h; exact .inl rfl
  | lock3 cur other plen =>
    simp only [stepD] at h
    rcases lockNodes3_taken st cur.op.child cur.op.childGen cur.op.node cur.op.nodeGen cur.op.parent cur.op.parentGen with ⟨h1, h2⟩ | h1
    · split at h
      · rename_i st1 e
        rw [e] at h1; cases h1
      · rename_i st1 e
        rw [e] at h2
        obtain ⟨x, _, h⟩ := bind_ok h
        obtain ⟨d, _, h⟩ := bind_ok h
        obtain ⟨y, _, h⟩ := bind_ok h
        cases h; exact .inr ⟨rfl, h2⟩
    · rw [h1] at h
      cases h; exact .inl rfl
  | start key =>
    left
    simp only [stepD] at h
    split at h
    · cases h; rfl
    · split at h
      · obtain ⟨k, _, h⟩ := bind_ok h
        split at h <;> (cases h; rfl)
      · cases h; rfl
  | root key root =>
    simp only [stepD, St.lockLeafRoot] at h
    left
    by_cases hr : st.rootLock = 0
    · rw [if_pos hr] at h
      by_cases he : st.root = root
      · rw [if_pos he] at h; cases h; rfl
      · rw [if_neg he] at h; cases h; rfl
    · rw [if_neg hr] at h; cases h; rfl
  | gen cur => simp only [stepD] at h; obtain ⟨g, _, h⟩ := bind_ok h; cases h; exact .inl rfl
  | ptr cur => simp only [stepD] at h; split at h <;> (cases h; exact .inl rfl)
  | par cur =>
    simp only [stepD] at h
    split at h
    · cases h; exact .inl rfl
    · obtain ⟨g, _, h⟩ := bind_ok h
      split at h <;> (cases h; exact .inl rfl)
  | body cur => simp only [stepD] at h; obtain ⟨g, _, h⟩ := bind_ok h; cases h; exact .inl rfl
  | other cur p plen =>
    simp only [stepD] at h
    split at h
    · obtain ⟨g, _, h⟩ := bind_ok h; cases h; exact .inl rfl
    · cases h; exact .inl rfl
  | cgen cur p o plen => simp only [stepD] at h; obtain ⟨g, _, h⟩ := bind_ok h; cases h; exact .inl rfl
  | cptr cur p o plen => simp only [stepD] at h; split at h <;> (cases h; exact .inl rfl)
  | miss key => cases h; exact .inl rfl
  | held cur => cases h; exact .inl rfl
  | tail r tl => cases h; exact .inl rfl

/-- What one step does to the lock words. -/
theorem exec_lockWords {fetch : Word → Key} {s s' : Sys} {act : Act} {ev : Ev} (h : exec fetch s act = some (.ok (s', ev))) :
    WordsReleased s.st.locks s'.st.locks ∨ (act.prepares s' = true ∧ WordsTaken s.st.locks s'.st.locks) := by
  cases act with
  | run a =>
    simp only [exec] at h
    split at h
    all_goals first
      | (cases h; done)
      | skip
    · injection h with h
      obtain ⟨⟨ph', st'⟩, h1, h⟩ := bind_ok h
      cases h
      rcases stepU_taken h1 with h2 | ⟨h2, h3⟩
      · exact .inl (.of_eq h2)
      · exact .inr ⟨by simpa only [Act.prepares, Sys.set_self] using h2, h3⟩
    · injection h with h
      obtain ⟨⟨ph', st'⟩, h1, h⟩ := bind_ok h
      cases h
      rcases stepD_taken h1 with h2 | ⟨h2, h3⟩
      · exact .inl (.of_eq h2)
      · exact .inr ⟨by simpa only [Act.prepares, Sys.set_self] using h2, h3⟩
    · injection h with h
      obtain ⟨ph', h1, h⟩ := bind_ok h
      cases h
      exact .inl (.of_eq rfl)
  | begin a c =>
    left
    simp only [exec] at h
    split at h
    · split at h
      · cases h; exact .of_eq rfl
      · cases h
    · cases h
  | arm a =>
    left
    simp only [exec] at h
    split at h
    · cases h; exact .of_eq rfl
    · cases h
  | slip a =>
    left
    obtain ⟨_, _, ⟨ph, ph', hp, hsl, rfl⟩ | ⟨ph, ph', hp, hsl, rfl⟩⟩ := exec_slip_ok h <;> exact .of_eq rfl
  | publish a v =>
    left
    simp only [exec] at h
    split at h
    · injection h with h
      obtain ⟨⟨b, tl, st'⟩, h1, h⟩ := bind_ok h
      cases h
      exact .of_eq (publishU_ctl h1).1.locks
    · injection h with h
      obtain ⟨⟨b, tl, st'⟩, h1, h⟩ := bind_ok h
      cases h
      exact .of_eq (publishD_ctl h1).1.locks
    · cases h
  | build a v =>
    left
    simp only [exec] at h
    split at h
    · injection h with h
      obtain ⟨⟨cm, st'⟩, h1, h⟩ := bind_ok h
      cases h
      exact .of_eq (buildU_ctl h1).1.locks
    · split at h
      · cases h
      · injection h with h
        obtain ⟨⟨cm, st'⟩, h1, h⟩ := bind_ok h
        cases h
        exact .of_eq (buildD_ctl h1).1.locks
    · cases h
  | commit a =>
    left
    simp only [exec] at h
    split at h
    · cases h; exact .of_eq (commit_ctl _ _).locks
    · cases h; exact .of_eq (commit_ctl _ _).locks
    · cases h
  | unlock a =>
    left
    obtain ⟨_, ⟨r, tl, u, st', hp, hs, rfl⟩ | ⟨r, tl, u, st', hp, hs, rfl⟩⟩ := exec_unlock_ok h <;> exact unlockOne_wordsReleased hs
  | tail a =>
    left
    simp only [exec] at h
    split at h
    · injection h with h
      obtain ⟨st', h1, h⟩ := bind_ok h
      cases h
      exact runTail_wordsReleased h1
    · injection h with h
      obtain ⟨st', h1, h⟩ := bind_ok h
      cases h
      exact runTail_wordsReleased h1
    · cases h
  | quit a =>
    left
    obtain ⟨_, ⟨f, op, hp, rfl⟩ | ⟨cur, hp, rfl⟩⟩ := exec_quit_ok h <;> exact .of_eq rfl
  | abort a =>
    left
    simp only [exec] at h
    split at h
    · injection h with h
      obtain ⟨st', h1, h⟩ := bind_ok h
      cases h
      exact abortU_wordsReleased h1
    · injection h with h
      obtain ⟨st', h1, h⟩ := bind_ok h
      cases h
      exact abortD_wordsReleased h1
    · cases h
  | finish a =>
    left
    simp only [exec] at h
    split at h
    all_goals first | (cases h; done) | (cases h; exact .of_eq rfl)
  | flush a =>
    left
    simp only [exec] at h
    split at h
    · split at h
      · cases h; exact .of_eq rfl
      · cases h
    · cases h
  | block =>
    left
    simp only [exec] at h
    injection h with h
    obtain ⟨st', h1, h⟩ := bind_ok h
    cases h
    exact .of_eq (blockStep_ctl h1).locks

/-- The lock words are at most twice the number of operations prepared. -/
def GensUpTo (n : Nat) (s : Sys) : Prop := ∀ b i, 0 ≤ s.st.locks b i ∧ s.st.locks b i ≤ 2 * n

theorem GensUpTo.exec {fetch : Word → Key} {s s' : Sys} {act : Act} {ev : Ev} {n : Nat} (hg : GensUpTo n s)
    (h : exec fetch s act = some (.ok (s', ev))) : GensUpTo (n + if act.prepares s' then 1 else 0) s' := by
  intro b i
  have g := hg b i
  rcases exec_lockWords h with h1 | ⟨h1, h2⟩
  · have : (0 : Int) ≤ ((if act.prepares s' then 1 else 0 : Nat) : Int) := Int.natCast_nonneg _
    rcases h1 b i with e | ⟨e1, e⟩ <;> rw [e] <;> omega
  · rw [if_pos h1]
    rcases h2 b i with e | e <;> rw [e] <;> omega

theorem GensUpTo.wrap {n : Nat} {s : Sys} (hg : GensUpTo n s) (hn : n < 2 ^ 31) : s.wrap = s := by
  have : s.st.wrap = s.st := by
    unfold St.wrap
    have e : (fun b i => wrap32 (s.st.locks b i)) = s.st.locks := by
      funext b i
      have := hg b i
      unfold wrap32
      exact Int.emod_eq_of_lt this.1 (by omega)
    rw [e]
  unfold Sys.wrap
  rw [this]

theorem exec32_ok {fetch : Word → Key} {s s' : Sys} {act : Act} {ev : Ev} :
    exec32 fetch s act = some (.ok (s', ev)) ↔ ∃ s1, exec fetch s act = some (.ok (s1, ev)) ∧ s' = s1.wrap := by
  unfold exec32
  cases h : exec fetch s act with
  | none => simp
  | some r =>
    cases r with
    | error e => simp [Except.map]
    | ok x =>
      obtain ⟨s1, ev1⟩ := x
      simp only [Option.map_some, Except.map, Option.some.injEq, Except.ok.injEq, Prod.mk.injEq]
      constructor
      · rintro ⟨rfl, rfl⟩; exact ⟨s1, ⟨rfl, rfl⟩, rfl⟩
      · rintro ⟨s2, ⟨rfl, rfl⟩, rfl⟩; exact ⟨rfl, rfl⟩

theorem prepares_wrap (act : Act) (s : Sys) : act.prepares s.wrap = act.prepares s := by cases act <;> rfl

section
variable {env : Env} {G : Sys → Act → Prop} {n : Nat} {s : Sys} {σ : Spec}

theorem Counted.run (h : Counted exec env G n s σ) : Run env G s σ := by
  induction h with
  | init n => exact .init n
  | reload _ hs ih => exact .reload ih hs
  | step _ ha hg he ih => exact .step ih ha hg he

theorem Counted.gens (h : Counted exec env G n s σ) : GensUpTo n s := by
  induction h with
  | init n => exact fun b i => by simp [Sys.new, St.new]
  | reload _ hs ih => exact fun b i => ⟨Int.le_refl 0, by simp only [St.restore]; omega⟩
  | step _ ha hg he ih => exact ih.exec he

end

/-- Every execution has a number of prepared operations. -/
theorem Run.someCount {env : Env} {G : Sys → Act → Prop} {s : Sys} {σ : Spec} (h : Run env G s σ) : ∃ n, Counted exec env G n s σ := by
  induction h with
  | init n => exact ⟨0, .init n⟩
  | reload _ hs ih => obtain ⟨n, ih⟩ := ih; exact ⟨n, .reload ih hs⟩
  | step _ ha hg he ih => obtain ⟨n, ih⟩ := ih; exact ⟨_, .step ih ha hg he⟩

/-- C58, as long as fewer than 2^31 updates and deletes have been prepared: the executions of the code with its 32-bit generations are exactly
the executions with generations that never wrap around (to which all other properties refer). -/
theorem C58_same_executions_partial {env : Env} {G : Sys → Act → Prop} {n : Nat} (hn : n < 2 ^ 31) {s : Sys} {σ : Spec} :
    Counted exec32 env G n s σ ↔ Counted exec env G n s σ := by
  constructor
  · intro h
    induction h with
    | init n => exact .init n
    | reload _ hs ih => exact .reload (ih hn) hs
    | @step n s σ act s' ev _ ha hg he ih =>
      have hc := ih (by omega)
      obtain ⟨s1, he1, rfl⟩ := exec32_ok.1 he
      rw [prepares_wrap] at hn ⊢
      rw [(hc.gens.exec he1).wrap hn]
      exact .step hc ha hg he1
  · intro h
    induction h with
    | init n => exact .init n
    | reload _ hs ih => exact .reload (ih hn) hs
    | @step n s σ act s' ev hc ha hg he ih =>
      refine .step (ih (by omega)) ha hg (exec32_ok.2 ⟨s', he, ?_⟩)
      exact ((hc.gens.exec he).wrap hn).symm

/-! ## Wrapping around -/

/-- Reading a node does not depend on the generation. -/
theorem bodyU_gen {st : St} {op op1 : UpdOp} {f : Bool} (hp : nodePlen op.raw = 0) (h : bodyU st op = .ok (.lock f op1)) (g : Int) :
    bodyU st { op with nodeGen := g } = .ok (.lock f { op1 with nodeGen := g }) := by
  have key : ∀ {m : Mem} {op op1 : UpdOp} {d : Slice}, childrenU m op d = .ok (.lock f op1) →
      childrenU m { op with nodeGen := g } d = .ok (.lock f { op1 with nodeGen := g }) := by
    intro m op op1 d h
    unfold childrenU at h ⊢
    obtain ⟨k, hk, h⟩ := bind_ok h
    simp only [hk] at h ⊢
    show (if _ then _ else _) = _
    split at h
    · rename_i hc
      obtain ⟨a, ha, h⟩ := bind_ok h
      rw [if_pos hc]
      simp only [ha]
      show (if _ then _ else _) = _
      split at h
      · rename_i h0; rw [if_pos h0]; cases h; rfl
      · rename_i h0
        rw [if_neg h0]
        split at h
        · rename_i h1; rw [if_pos h1]; cases h; rfl
        · cases h
    · rename_i hc
      obtain ⟨a, ha, h⟩ := bind_ok h
      rw [if_neg hc]
      simp only [ha]
      show (if _ then _ else _) = _
      split at h
      · rename_i h0
        rw [if_pos h0]
        split at h
        · rename_i h1; rw [if_pos h1]; cases h; rfl
        · cases h
      · rename_i h0; rw [if_neg h0]; cases h; rfl
  unfold bodyU at h ⊢
  obtain ⟨d, hd, h⟩ := bind_ok h
  simp only [hd] at h ⊢
  show (if _ then _ else _) = _
  rw [if_neg (by omega)] at h ⊢
  exact key h

/-- The state `T` with another generation of node `N`, reservations and phase of allocator 0. -/
def lapState (T : Sys) (N : Nat) (g : Int) (r : Nat → Nat) (p : Proc) : Sys :=
  ⟨{ T.st.setGen N g with resv := r }, upd T.proc 0 p⟩

theorem upd_noop {α : Type} {f : Nat → α} {a : Nat} {x : α} (h : f a = x) : upd f a x = f := by
  funext b
  unfold upd
  split
  · rename_i e; rw [e, h]
  · rfl

theorem setGen_setGen (st : St) (N : Nat) (g g' : Int) : (st.setGen N g).setGen N g' = st.setGen N g' := by
  unfold St.setGen
  simp only [St.mk.injEq, true_and, and_true]
  funext b i
  split <;> rfl

section
variable {T : Sys} {N : Nat} {r : Nat → Nat}

theorem lapState_wrap (hT : ∀ b i, wrap32 (T.st.locks b i) = T.st.locks b i) (g : Int) (p : Proc) :
    (lapState T N g r p).wrap = lapState T N (wrap32 g) r p := by
  unfold lapState Sys.wrap St.wrap St.setGen
  simp only [Sys.mk.injEq, St.mk.injEq, true_and, and_true]
  funext b i
  split
  · rfl
  · exact hT b i

theorem lapState_set (g : Int) (p p' : Proc) : (lapState T N g r p).set 0 (lapState T N g r p).st p' = lapState T N g r p' := by
  unfold lapState Sys.set
  simp only [upd_upd]

theorem lapState_proc (g : Int) (p : Proc) : (lapState T N g r p).proc 0 = p := by unfold lapState; simp

theorem lapState_gen (g : Int) (p : Proc) : (lapState T N g r p).st.gen N = g := by
  unfold lapState St.setGen St.gen
  simp

variable {env : Env} {w : Word} {key : Key} {op : UpdOp} {n : Nat} {g : Int} {σ : Spec}

/-- A step of allocator 0 that leaves the lock words alone. -/
theorem Counted.lapStep (hT : ∀ b i, wrap32 (T.st.locks b i) = T.st.locks b i) (hg : wrap32 g = g) {ph ph' : UPh}
    (h : Counted exec32 env Calm n (lapState T N g r (.upd ph)) σ)
    (h1 : ∀ f op, ph ≠ .held f op) (h2 : ∀ b tl, ph ≠ .tail b tl) (h3 : ∀ op, ph = .par op → op.parent = 0)
    (hs : stepU (lapState T N g r (.upd ph)).st ph = .ok (ph', (lapState T N g r (.upd ph)).st)) (hh : ∀ f op, ph' ≠ .held f op) :
    Counted exec32 env Calm n (lapState T N g r (.upd ph')) σ := by
  have he : exec env.fetch (lapState T N g r (.upd ph)) (.run 0) = some (.ok (lapState T N g r (.upd ph'), .none)) := by
    cases ph with
    | held f op => exact absurd rfl (h1 f op)
    | tail b tl => exact absurd rfl (h2 b tl)
    | _ =>
      simp only [exec, lapState_proc, hs]
      exact congrArg (fun x => some (Except.ok (x, Ev.none))) (lapState_set g _ _)
  have hc : Calm (lapState T N g r (.upd ph)) (.run 0) := by
    cases ph with
    | par op =>
      simp only [Calm, lapState_proc]
      exact fun h => absurd (h3 op rfl) h
    | _ => simp only [Calm, lapState_proc]
  have := Counted.step (ex := exec32) h (act := .run 0) trivial hc (exec32_ok.2 ⟨_, he, rfl⟩)
  rw [lapState_wrap hT, hg] at this
  have hz : (Act.run 0).prepares (lapState T N g r (.upd ph')) = false := by
    simp only [Act.prepares, lapState_proc]
    cases ph' with
    | held f op => exact absurd rfl (hh f op)
    | _ => rfl
  rw [hz] at this
  exact this

/-- `PrepareUpdate` and `Abort`, without interruption, of a key whose leaf is in the root node: the generation of this node is
increased by two, and nothing else changes. -/
theorem Counted.lap (hT : ∀ b i, wrap32 (T.st.locks b i) = T.st.locks b i) (hi : T.proc 0 = .idle) (ha : 0 < T.st.nalloc)
    (hr : T.st.resv 0 = maxUint64) (hw : T.st.root = w) (hw0 : ¬ (w = 0 ∨ isLeaf w = true)) (hN : nodeAddr w = N)
    (hb : lockBlock N < T.st.nblocks) (hpl : nodePlen w = 0)
    (hbody : bodyU T.st { key := key, nodePtr := .root, raw := w, node := N, count := nodeCount w } = .ok (.lock true op))
    (hop : op.node = N ∧ op.parent = 0 ∧ op.kind = .nodeLeafUpdate) (hk : env.keys key) (hg : wrap32 g = g) (hev : g % 2 = 0)
    (h : Counted exec32 env Calm n (lapState T N g T.st.resv .idle) σ) :
    ∃ σ', Counted exec32 env Calm (n + 1) (lapState T N (wrap32 (g + 2)) T.st.resv .idle) σ' ∧ σ'.map = σ.map ∧ σ'.call 1 = σ.call 1 := by
  refine ⟨σ.next (.begun 0 (.update key)), ?_, rfl, by simp [Spec.next, upd]⟩
  -- startOp
  have e1 : exec env.fetch (lapState T N g T.st.resv .idle) (.begin 0 (.update key)) =
      some (.ok (lapState T N g T.st.resv (.arm T.st.epoch (.update key)), .none)) := by
    simp only [exec, lapState_proc]
    rw [if_pos (show 0 < (lapState T N g T.st.resv .idle).st.nalloc from ha)]
    exact congrArg (fun x => some (Except.ok (x, Ev.none))) (lapState_set g _ _)
  have c1 := Counted.step (ex := exec32) h (act := .begin 0 (.update key)) hk trivial (exec32_ok.2 ⟨_, e1, rfl⟩)
  rw [lapState_wrap hT, hg] at c1
  have e2 : exec env.fetch (lapState T N g T.st.resv (.arm T.st.epoch (.update key))) (.arm 0) =
      some (.ok (lapState T N g (upd T.st.resv 0 T.st.epoch) (.upd (.start key)), .begun 0 (.update key))) := by
    simp only [exec, lapState_proc]
    simp only [lapState, Sys.set, upd_upd, Call.start]
  have c2 := Counted.step (ex := exec32) c1 (act := .arm 0) trivial trivial (exec32_ok.2 ⟨_, e2, rfl⟩)
  rw [lapState_wrap hT, hg] at c2
  -- prepareUpdate
  have hmem : ∀ r p, (lapState T N g r p).st.root = w := fun _ _ => hw
  have hgen : ∀ r p, (lapState T N g r p).st.generation N = .ok g := fun r p => by
    unfold St.generation
    rw [lapState_gen]
    exact if_pos hb
  have c3 := c2.lapStep hT hg (ph' := .gen { key := key, nodePtr := .root, raw := w }) (by simp) (by simp) (by simp)
    (by simp only [stepU, hmem]; rw [if_neg hw0]) (by simp)
  have c4 := c3.lapStep hT hg (ph' := .ptr { key := key, nodePtr := .root, raw := w, node := N, count := nodeCount w, nodeGen := g })
    (by simp) (by simp) (by simp) (by simp only [stepU, hN, hgen]; rfl) (by simp)
  have c5 := c4.lapStep hT hg (ph' := .par { key := key, nodePtr := .root, raw := w, node := N, count := nodeCount w, nodeGen := g })
    (by simp) (by simp) (by simp) (by
      simp only [stepU]
      rw [if_neg (by simp only [ne_eq, Decidable.not_not]; exact hw)]) (by simp)
  have c6 := c5.lapStep hT hg (ph' := .body { key := key, nodePtr := .root, raw := w, node := N, count := nodeCount w, nodeGen := g })
    (by simp) (by simp) (by simp) (by simp only [stepU]; rfl) (by simp)
  have hbody' := bodyU_gen (by simpa using hpl) hbody g
  have c7 := c6.lapStep hT hg (ph' := .lock true { op with nodeGen := g }) (by simp) (by simp) (by simp) (by
      simp only [stepU]
      have : ∀ r p, bodyU (lapState T N g r p).st { key := key, nodePtr := .root, raw := w, node := N, count := nodeCount w, nodeGen := g } =
          .ok (.lock true { op with nodeGen := g }) := fun _ _ => hbody'
      rw [this]; rfl) (by simp)
  have o : ({ op with nodeGen := g } : UpdOp).node = N ∧ ({ op with nodeGen := g } : UpdOp).parent = 0 ∧
      ({ op with nodeGen := g } : UpdOp).kind = .nodeLeafUpdate ∧ ({ op with nodeGen := g } : UpdOp).nodeGen = g := ⟨hop.1, hop.2.1, hop.2.2, rfl⟩
  generalize ({ op with nodeGen := g } : UpdOp) = op' at c7 o
  obtain ⟨o1, o2, o3, o4⟩ := o
  generalize hr1 : upd T.st.resv 0 T.st.epoch = r1 at c7
  have hl : (lapState T N g r1 (.upd (.lock true op'))).st.lockNodes2 N g 0 op'.parentGen =
      (true, (lapState T N (g + 1) r1 (.upd (.lock true op'))).st) := by
    unfold St.lockNodes2 St.lockNode St.casGen
    rw [if_pos rfl, if_neg (by omega), lapState_gen, if_pos rfl]
    exact congrArg (fun x => (true, ({ x with resv := r1 } : St))) (setGen_setGen _ _ _ _)
  have e8 : exec env.fetch (lapState T N g r1 (.upd (.lock true op'))) (.run 0) =
      some (.ok (lapState T N (g + 1) r1 (.upd (.held true op')), .none)) := by
    simp only [exec, lapState_proc, stepU, o1, o2, o4]
    rw [hl]
    refine congrArg (fun x => some (Except.ok (x, Ev.none))) ?_
    unfold lapState Sys.set
    simp only [upd_upd]
  have c8 := Counted.step (ex := exec32) c7 (act := .run 0) trivial (by simp only [Calm, lapState_proc]) (exec32_ok.2 ⟨_, e8, rfl⟩)
  rw [lapState_wrap hT] at c8
  -- Abort
  generalize hg1 : wrap32 (g + 1) = g1 at c8
  have hodd : (g1 + 1) % 2 = 0 := by unfold wrap32 at hg1; omega
  have e9 : exec env.fetch (lapState T N g1 r1 (.upd (.held true op'))) (.abort 0) =
      some (.ok (lapState T N (g1 + 1) T.st.resv .idle, .none)) := by
    have hu : (lapState T N g1 r1 (.upd (.held true op'))).st.unlockNodes2 N 0 =
        .ok (lapState T N (g1 + 1) r1 (.upd (.held true op'))).st := by
      unfold St.unlockNodes2 St.unlockNode
      rw [if_pos rfl, lapState_gen, if_pos hodd]
      exact congrArg (fun x => Except.ok ({ x with resv := r1 } : St)) (setGen_setGen _ _ _ _)
    simp only [exec, lapState_proc, abortU, o1, o2, o3, hu]
    refine congrArg (fun x => some (Except.ok (x, Ev.none))) ?_
    unfold lapState Sys.set St.endOp
    simp only [upd_upd, ← hr1, upd_noop hr]
  have c9 := Counted.step (ex := exec32) c8 (act := .abort 0) trivial (by simp only [Calm, lapState_proc]) (exec32_ok.2 ⟨_, e9, rfl⟩)
  rw [lapState_wrap hT] at c9
  have hg2 : wrap32 (g1 + 1) = wrap32 (g + 2) := by unfold wrap32 at hg1 ⊢; omega
  rw [hg2] at c9
  have hz : (Act.run 0).prepares (lapState T N g1 r1 (.upd (.held true op'))) = true := by
    simp only [Act.prepares, lapState_proc]; rfl
  rw [hz] at c9
  exact c9

/-- Any number of these. -/
theorem Counted.laps (hT : ∀ b i, wrap32 (T.st.locks b i) = T.st.locks b i) (hi : T.proc 0 = .idle) (ha : 0 < T.st.nalloc)
    (hr : T.st.resv 0 = maxUint64) (hw : T.st.root = w) (hw0 : ¬ (w = 0 ∨ isLeaf w = true)) (hN : nodeAddr w = N)
    (hb : lockBlock N < T.st.nblocks) (hpl : nodePlen w = 0)
    (hbody : bodyU T.st { key := key, nodePtr := .root, raw := w, node := N, count := nodeCount w } = .ok (.lock true op))
    (hop : op.node = N ∧ op.parent = 0 ∧ op.kind = .nodeLeafUpdate) (hk : env.keys key) (hev : T.st.gen N % 2 = 0)
    (h : Counted exec32 env Calm n T σ) (j : Nat) :
    ∃ σ', Counted exec32 env Calm (n + j) (lapState T N (wrap32 (T.st.gen N + 2 * j)) T.st.resv .idle) σ' ∧ σ'.map = σ.map ∧
      σ'.call 1 = σ.call 1 := by
  induction j with
  | zero =>
    refine ⟨σ, ?_, rfl, rfl⟩
    have e : lapState T N (wrap32 (T.st.gen N + 2 * (0 : Nat))) T.st.resv .idle = T := by
      have e1 : wrap32 (T.st.gen N + 2 * (0 : Nat)) = T.st.gen N := by
        simp only [Int.natCast_zero, Int.mul_zero, Int.add_zero]
        exact hT _ _
      rw [e1]
      unfold lapState
      rw [upd_noop hi]
      have e2 : T.st.setGen N (T.st.gen N) = T.st := by
        unfold St.setGen
        have : (fun b i => if b = lockBlock N ∧ i = lockIdx N then T.st.gen N else T.st.locks b i) = T.st.locks := by
          funext b i
          split
          · rename_i e; rw [e.1, e.2]; rfl
          · rfl
        rw [this]
      rw [e2]
    rw [e]
    exact h
  | succ j ih =>
    obtain ⟨σ1, h1, h2, h3⟩ := ih
    obtain ⟨σ2, g1, g2, g3⟩ := h1.lap hT hi ha hr hw hw0 hN hb hpl hbody hop hk (by unfold wrap32; omega) (by unfold wrap32; omega)
    refine ⟨σ2, ?_, g2.trans h2, g3.trans h3⟩
    have e : wrap32 (wrap32 (T.st.gen N + 2 * j) + 2) = wrap32 (T.st.gen N + 2 * (j + 1 : Nat)) := by unfold wrap32; omega
    rw [e] at g1
    exact g1

end

theorem Counted.trace {l h} {G : Sys → Act → Prop} {g : Sys → Act → Bool}
    (hg : ∀ s σ act, Run (Env.ofList l h) G s σ → g s act = true → G s act) :
    ∀ {acts n s σ s' σ'}, Counted exec (Env.ofList l h) G n s σ → Radix.trace l g s σ acts = some (s', σ') →
      ∃ n', n' ≤ n + acts.length ∧ Counted exec (Env.ofList l h) G n' s' σ'
  | [], n, s, σ, s', σ', hr, ht => by
    simp only [Radix.trace, Option.some.injEq, Prod.mk.injEq] at ht
    obtain ⟨rfl, rfl⟩ := ht
    exact ⟨n, Nat.le_add_right _ _, hr⟩
  | act :: acts, n, s, σ, s', σ', hr, ht => by
    simp only [Radix.trace] at ht
    split at ht
    · rename_i hb
      simp only [Bool.and_eq_true] at hb
      split at ht
      · rename_i s1 ev he
        obtain ⟨n', h1, h2⟩ := Counted.trace hg (.step hr (allowedB_sound hb.1) (hg _ _ _ hr.run hb.2) he) ht
        refine ⟨n', ?_, h2⟩
        simp only [List.length_cons]
        split at h1 <;> omega
      · cases ht
    · cases ht

/-- The keys "a" and "b". -/
def lapKeys : List Key := [[97], [98]]

theorem lapKeys_good : goodKeys lapKeys = true := by decide +kernel

/-- The keys are inserted; `PrepareUpdate("a")` with allocator 1 reads the tree and is about to lock the root node; then "a" gets the value 2. -/
def lapActs : List Act :=
  [.block] ++ putActs 0 [97] 0 2 ++ putActs 0 [98] 1 2 ++ [.begin 1 (.update [97]), .arm 1] ++ List.replicate 5 (.run 1) ++ putActs 0 [97] 2 6

/-- The state after these steps. -/
def lapCheck (s : Sys) (σ : Spec) : Bool :=
  (s.proc 0).isIdle && decide (0 < s.st.nalloc) && decide (s.st.resv 0 = maxUint64) && decide (s.st.root = 72057594037928448) &&
  decide (0 < s.st.nblocks) && decide (s.st.gen 1 = 2) && decide (σ.map [97] = some 2) && decide (σ.call 1 = .update [97]) &&
  (match bodyU s.st { key := [97], nodePtr := .root, raw := 72057594037928448, node := 1, count := 2 } with
    | .ok (.lock true op) => decide (op.node = 1) && decide (op.parent = 0) && decide (op.kind = .nodeLeafUpdate)
    | _ => false) &&
  (match s.proc 1 with
    | .upd (.lock true op) => decide (op.node = 1) && decide (op.parent = 0) && decide (op.nodeGen = 0) && decide (op.value = 0)
    | _ => false)

/-- With generations of 32 bits, after 2^31 prepared operations: `PrepareUpdate("a")` returns the value 0 although the value of "a" is 2.  It loaded
the generation of the node and read the value, and was then interrupted while "a" got the value 2 and another goroutine prepared and aborted updates
until the generation was back at the value loaded before. -/
theorem C58_stale_value : ∃ n s σ op, n ≤ 2 ^ 31 + 100 ∧ Counted exec32 (Env.ofList lapKeys lapKeys_good) Calm n s σ ∧
    σ.call 1 = .update [97] ∧ s.proc 1 = .upd (.held true op) ∧ op.value = 0 ∧ σ.map [97] = some 2 := by
  have hc : checkTrace lapKeys calmB 2 lapActs lapCheck = true := by decide +kernel
  unfold checkTrace at hc
  split at hc
  · rename_i T σ ht
    obtain ⟨n, hn, hC⟩ := Counted.trace (h := lapKeys_good) (G := Calm) calm_sound (.init 2) ht
    have hlen : lapActs.length = 30 := by decide
    have hn' : n < 2 ^ 31 := by omega
    have hT : ∀ b i, wrap32 (T.st.locks b i) = T.st.locks b i := fun b i => by
      have := hC.gens b i
      unfold wrap32
      exact Int.emod_eq_of_lt this.1 (by omega)
    have h32 := (C58_same_executions_partial hn').2 hC
    simp only [lapCheck, Bool.and_eq_true, decide_eq_true_eq] at hc
    obtain ⟨⟨⟨⟨⟨⟨⟨⟨⟨a1, a2⟩, a3⟩, a4⟩, a5⟩, a6⟩, a7⟩, a8⟩, a9⟩, a10⟩ := hc
    split at a9
    · rename_i op hbody
      simp only [Bool.and_eq_true, decide_eq_true_eq] at a9
      split at a10
      · rename_i op1 hp
        simp only [Bool.and_eq_true, decide_eq_true_eq] at a10
        obtain ⟨⟨⟨b1, b2⟩, b3⟩, b4⟩ := a10
        obtain ⟨σ', g1, g2, g3⟩ := Counted.laps (N := 1) (w := 72057594037928448) (key := [97]) hT (Proc.idle_of a1) a2 a3 a4 (by decide) (by decide)
          (show 0 < _ from a5) (by decide) hbody ⟨a9.1.1, a9.1.2, a9.2⟩ (by simp [Env.ofList, lapKeys]) (by rw [a6]; decide) h32 (2 ^ 31 - 1)
        have e0 : wrap32 (T.st.gen 1 + 2 * ((2 ^ 31 - 1 : Nat) : Int)) = 0 := by rw [a6]; decide
        rw [e0] at g1
        have hp1 : (lapState T 1 0 T.st.resv .idle).proc 1 = .upd (.lock true op1) := by
          show upd T.proc 0 .idle 1 = _
          rw [upd_of_ne _ _ (by decide)]
          exact hp
        have hl : (lapState T 1 0 T.st.resv .idle).st.lockNodes2 1 0 0 op1.parentGen =
            (true, ((lapState T 1 0 T.st.resv .idle).st.setGen 1 1)) := by
          unfold St.lockNodes2 St.lockNode St.casGen
          rw [if_pos rfl, if_neg (by decide), lapState_gen, if_pos rfl]
          rfl
        have he : exec (Env.ofList lapKeys lapKeys_good).fetch (lapState T 1 0 T.st.resv .idle) (.run 1) =
            some (.ok ((lapState T 1 0 T.st.resv .idle).set 1 ((lapState T 1 0 T.st.resv .idle).st.setGen 1 1) (.upd (.held true op1)), .none)) := by
          simp only [exec, hp1, stepU, b1, b2, b3, hl]
          rfl
        have c := Counted.step (ex := exec32) g1 (act := .run 1) trivial (by simp only [Calm, hp1]) (exec32_ok.2 ⟨_, he, rfl⟩)
        refine ⟨_, _, _, op1, ?_, c, by rw [← a8]; exact g3, by simp only [Sys.wrap, Sys.set_self], b4, ?_⟩
        · split <;> omega
        · rw [← a7, ← g2]; rfl
      · cases a10
    · cases a9
  · cases hc

/-- The full statement of C58: without a bound on the number of operations.  It does not hold. -/
def C58_statement : Prop := ∀ (env : Env) (G : Sys → Act → Prop) (n : Nat) (s : Sys) (σ : Spec), Counted exec32 env G n s σ →
  Counted exec env G n s σ

/-- C58 does not hold for executions of any length: with unbounded generations the value returned would be the current one (C04). -/
theorem C58_does_not_hold : ¬ C58_statement := by
  intro hall
  obtain ⟨n, s, σ, op, _, h1, h2, h3, h4, h5⟩ := C58_stale_value
  have := (C04_prepare_update_classifies_concurrent_partial (hall _ _ _ _ _ h1).run h2 h3).2 rfl
  have := this.2 _ h5
  rw [h4] at this
  cases this

/-- There are such executions with operations prepared. -/
example : ∃ n s σ, 0 < n ∧ n < 2 ^ 31 ∧ Counted exec32 (Env.ofList lapKeys lapKeys_good) Calm n s σ ∧ s.st.gen 1 = 2 := by
  have hc : checkTrace lapKeys calmB 2 lapActs lapCheck = true := by decide +kernel
  unfold checkTrace at hc
  split at hc
  · rename_i T σ ht
    obtain ⟨n, hn, hC⟩ := Counted.trace (h := lapKeys_good) (G := Calm) calm_sound (.init 2) ht
    have hlen : lapActs.length = 30 := by decide
    have hn' : n < 2 ^ 31 := by omega
    simp only [lapCheck, Bool.and_eq_true, decide_eq_true_eq] at hc
    have hg := hc.1.1.1.1.2
    refine ⟨n, T, σ, ?_, hn', (C58_same_executions_partial hn').2 hC, hg⟩
    have := hC.gens (lockBlock 1) (lockIdx 1)
    have e : T.st.gen 1 = T.st.locks (lockBlock 1) (lockIdx 1) := rfl
    omega
  · cases hc

end Radix
