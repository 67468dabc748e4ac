import Verif.Sys.Seq
/-!
# Interleaved calls

Executions in which the calls of updates and deletes (`PrepareUpdate`, `PrepareDelete`, `Finalize`, `Abort`) are not interrupted by each
other, while any number of operations may be prepared at the same time.  Lookups may run at any time.
-/
namespace Radix

/-- In the middle of a call of an update or delete. -/
def Proc.busy : Proc → Bool
  | .upd (.held _ _) => false
  | .del (.held _) => false
  | .del (.miss _) => false
  | p => p.writer

/-- The allocator of a step. -/
def Act.who : Act → Option Nat
  | .begin a _ | .arm a | .run a | .slip a | .publish a _ | .build a _ | .commit a | .unlock a | .tail a | .quit a | .abort a | .finish a
  | .flush a => some a
  | .block => none

/-- The calls that change nothing. -/
def Call.reads : Call → Bool
  | .lookup _ => true
  | .walk => true
  | _ => false

/-- Calls of updates and deletes do not overlap.  (Lookups and walks begin when there is a block, see C35.)  A delete from a 256-slot node that
was prepared before the node was replaced is not finalized, and a merge with the root is not aborted while the lock word (0,0) is held
by another operation. -/
def Calls (s : Sys) (act : Act) : Prop :=
  (∀ a b, act.who = some a → a ≠ b → ((s.proc a).writer = true ∨ ∃ c, act = .begin a c ∧ c.reads = false) → (s.proc b).busy = false) ∧
  match act with
  | .begin _ (.lookup _) => 0 < s.st.nblocks
  | .begin _ .walk => 0 < s.st.nblocks
  | .publish a _ =>
    ∀ cur, s.proc a = .del (.held cur) → cur.op.kind = .deleteLeaf256 → s.st.load cur.op.leafPtr = cur.op.raw →
        ∃ p, cur.op.leafPtr = .slot p ∧ LiveSlot s.st p
  | .commit a =>
    ∀ cur cm, s.proc a = .delB cur cm → cur.op.kind = .deleteLeaf256 → s.st.load cur.op.leafPtr = cur.op.raw →
        ∃ p, cur.op.leafPtr = .slot p ∧ LiveSlot s.st p
  | .quit a =>
    ∀ cur, s.proc a = .del (.held cur) → cur.op.kind = .replaceNodeWithNode → cur.op.parent = 0 →
        sameLock 0 cur.op.node ∨ sameLock 0 cur.op.child
  | .abort a =>
    ∀ cur, s.proc a = .del (.held cur) → cur.op.kind = .replaceNodeWithNode → cur.op.parent = 0 →
        sameLock 0 cur.op.node ∨ sameLock 0 cur.op.child ∨ s.st.gen 0 % 2 = 0
  | _ => True

/-- The generations a delete has read are current; deletes from 256-slot nodes copy nothing. -/
def GenNow (st : St) : Proc → Prop
  | .del (.gen cur) => cur.op.parent ≠ 0 → st.gen cur.op.parent = cur.op.parentGen
  | .del (.ptr cur) | .del (.par cur) | .del (.body cur) | .del (.other cur _ _) | .del (.cgen cur _ _ _) | .del (.cptr cur _ _ _) | .del (.lock3 cur _ _) =>
    st.gen cur.op.node = cur.op.nodeGen ∧ (cur.op.parent ≠ 0 → st.gen cur.op.parent = cur.op.parentGen)
  | .delB cur cm => cur.op.kind = .deleteLeaf256 → ∀ x, cm.ok.seg x = 0
  | _ => True

theorem GenNow.congr {st st' : St} {p : Proc} (h : GenNow st p) (hl : st'.locks = st.locks) : GenNow st' p := by
  have e : ∀ n, st'.gen n = st.gen n := fun n => by unfold St.gen; rw [hl]
  unfold GenNow at *
  split <;> simp_all

theorem GenNow.rest {st : St} {p : Proc} (h : p.busy = false) : GenNow st p := by
  unfold GenNow
  split <;> first | trivial | cases h

theorem generation_ok {st : St} {n : Nat} {g : Int} (h : st.generation n = .ok g) : g = st.gen n := by
  unfold St.generation at h
  split at h
  · cases h; rfl
  · cases h

theorem childrenD_gen {st : St} {cur : DelCur} {count plen : Nat} {data : Slice} {ph : DPh}
    (h : childrenD st.mem cur count plen data = .ok ph) (hg : st.gen cur.op.node = cur.op.nodeGen)
    (hp : cur.op.parent ≠ 0 → st.gen cur.op.parent = cur.op.parentGen) : GenNow st (.del ph) := by
  unfold childrenD at h
  simp only [bind, Except.bind, pure, Except.pure] at h
  repeat' split at h
  all_goals first
    | (cases h; done)
    | (cases h; first | exact ⟨hg, hp⟩ | exact fun _ => hg | trivial)

theorem stepD_genNow {st st' : St} {ph ph' : DPh} (h : stepD st ph = .ok (ph', st')) (hg : GenNow st (.del ph)) : GenNow st' (.del ph') := by
  cases ph with
  | start key =>
    simp only [stepD, bind, Except.bind, pure, Except.pure] at h
    repeat' split at h
    all_goals first | (cases h; done) | (cases h; simp [GenNow])
  | root key root =>
    simp only [stepD] at h
    split at h <;> (cases h; simp [GenNow])
  | gen cur =>
    simp only [stepD, bind, Except.bind, pure, Except.pure] at h
    split at h
    · cases h
    · rename_i g e
      cases h
      exact ⟨(generation_ok e).symm, hg⟩
  | ptr cur =>
    simp only [stepD] at h
    split at h
    · cases h; trivial
    · cases h; exact hg
  | par cur =>
    simp only [stepD, bind, Except.bind, pure, Except.pure] at h
    repeat' split at h
    all_goals first | (cases h; done) | (cases h; exact hg) | (cases h; trivial)
  | body cur =>
    simp only [stepD, bind, Except.bind, pure, Except.pure] at h
    split at h
    · cases h
    · rename_i e
      cases h
      unfold bodyD at e
      simp only [bind, Except.bind] at e
      repeat' split at e
      all_goals first
        | (cases e; done)
        | exact childrenD_gen e hg.1 hg.2
  | lock cur =>
    simp only [stepD] at h
    split at h <;> (cases h; simp [GenNow])
  | other cur p plen =>
    simp only [stepD, bind, Except.bind, pure, Except.pure] at h
    split at h
    · split at h
      · cases h
      · cases h; trivial
    · cases h; exact hg
  | cgen cur p other plen =>
    simp only [stepD, bind, Except.bind, pure, Except.pure] at h
    split at h
    · cases h
    · cases h
      exact hg
  | cptr cur p other plen =>
    simp only [stepD] at h
    split at h
    · cases h; trivial
    · cases h; exact hg
  | lock3 cur other plen =>
    simp only [stepD, bind, Except.bind, pure, Except.pure] at h
    repeat' split at h
    all_goals first | (cases h; done) | (cases h; trivial)
  | miss key => cases h; trivial
  | held cur => cases h; trivial
  | tail r tl => cases h; trivial

/-- At most one call of an update or delete is under way, and the generations it has read are current. -/
structure CInv (s : Sys) : Prop where
  one : ∀ a b, (s.proc a).busy = true → (s.proc b).busy = true → a = b
  now : ∀ a, GenNow s.st (s.proc a)

theorem Proc.writer_of_busy {p : Proc} (h : p.busy = true) : p.writer = true := by
  unfold Proc.busy at h
  split at h <;> first | rfl | (cases h; done) | exact h

theorem CInv.calm {s : Sys} (hC : CInv s) {act : Act} (h : Calls s act) : Calm s act := by
  have hwin : ∀ a n, act.who = some a → (s.proc a).writer = true → (s.proc a).tail? = none → ¬ s.Window n := by
    rintro a n h1 h2 h3 ⟨b, tl, h4, _⟩
    have hab : a ≠ b := by rintro rfl; rw [h3] at h4; cases h4
    have := h.1 a b h1 hab (.inl h2)
    unfold Proc.tail? at h4
    split at h4 <;> rename_i hb <;> first | (rw [hb] at this; cases this) | cases h4
  have hcop : ∀ a p, act.who = some a → (s.proc a).writer = true → (∀ x, (s.proc a).copied x = 0) → ¬ s.Copied p := by
    rintro a p h1 h2 h3 ⟨b, hb⟩
    by_cases hab : a = b
    · subst hab; rw [h3] at hb; omega
    · have := h.1 a b h1 hab (.inl h2)
      cases hp : s.proc b <;> rw [hp] at hb this <;> first | (cases this; done) | exact absurd hb (Nat.lt_irrefl 0)
  cases act with
  | begin a c =>
    cases c with
    | lookup key => exact h.2
    | walk => exact h.2
    | _ => trivial
  | run a =>
    simp only [Calm]
    split
    · rename_i op hp
      intro _ _
      exact .inl (hwin a _ rfl (by rw [hp]; rfl) (by rw [hp]; rfl))
    · rename_i cur hp
      intro _ _
      exact .inl (hwin a _ rfl (by rw [hp]; rfl) (by rw [hp]; rfl))
    · rename_i cur o pl hp
      intro _
      have := hC.now a
      rw [hp] at this
      exact this
    · trivial
  | publish a v =>
    simp only [Calm]
    split
    · rename_i cur hp
      intro h1 h2
      obtain ⟨p, h3, h4⟩ := h.2 cur hp h1 h2
      exact ⟨p, h3, h4, hcop a p rfl (by rw [hp]; rfl) (by rw [hp]; intro x; rfl)⟩
    · trivial
  | commit a =>
    simp only [Calm]
    split
    · rename_i cur cm hp
      intro h1 h2
      obtain ⟨p, h3, h4⟩ := h.2 cur cm hp h1 h2
      have := hC.now a
      rw [hp] at this
      exact ⟨p, h3, h4, hcop a p rfl (by rw [hp]; rfl) (by rw [hp]; exact this h1)⟩
    · trivial
  | abort a =>
    simp only [Calm]
    split
    · rename_i cur hp
      exact h.2 cur hp
    · trivial
  | quit a =>
    simp only [Calm]
    split
    · rename_i cur hp
      exact h.2 cur hp
    · trivial
  | _ => trivial

theorem Proc.busy_of_locking {p : Proc} (h : p.locking = true) : p.busy = true := by
  unfold Proc.locking at h
  split at h <;> first | rfl | cases h

/-- How a step changes the lock words, and who becomes busy. -/
theorem exec_calls {fetch : Word → Key} {s s' : Sys} {act : Act} {ev : Ev} (hC : CInv s) (h : Calls s act)
    (he : exec fetch s act = some (.ok (s', ev))) : CInv s' := by
  -- the step of a writer
  have wr : ∀ a p' st', act.who = some a → (s.proc a).writer = true → s' = s.set a st' p' → GenNow st' p' → CInv s' := by
    rintro a p' st' h1 h2 rfl h4
    have hb : ∀ b, a ≠ b → (s.proc b).busy = false := fun b hab => h.1 a b h1 hab (.inl h2)
    constructor
    · intro b c hb' hc'
      simp only [Sys.set, upd] at hb' hc'
      split at hb' <;> split at hc' <;> simp_all
      · rw [hb c (by omega)] at hc'; cases hc'
      · rw [hb b (by omega)] at hb'; cases hb'
      · rw [hb b (by omega)] at hb'; cases hb'
    · intro b
      simp only [Sys.set, upd]
      split
      · exact h4
      · rename_i hne
        exact GenNow.rest (hb b (by omega))
  -- a step that leaves the locks alone and makes nobody busy
  have rd : ∀ a p' st', s' = s.set a st' p' → st'.locks = s.st.locks → p'.busy = false → CInv s' := by
    rintro a p' st' rfl h1 h2
    constructor
    · intro b c hb' hc'
      simp only [Sys.set, upd] at hb' hc'
      split at hb' <;> split at hc' <;> simp_all
      exact hC.one b c hb' hc'
    · intro b
      simp only [Sys.set, upd]
      split
      · exact GenNow.rest h2
      · exact (hC.now b).congr h1
  cases act with
  | begin a c =>
    simp only [exec] at he
    split at he
    · rename_i hp
      split at he
      · cases he
        by_cases hw : c.reads = true
        · refine rd a _ _ rfl ?_ ?_ <;> (cases c <;> first | rfl | cases hw)
        · have hb : ∀ b, a ≠ b → (s.proc b).busy = false :=
            fun b hab => h.1 a b rfl hab (.inr ⟨c, rfl, by simpa using hw⟩)
          constructor
          · intro b c hb' hc'
            simp only [Sys.set, upd] at hb' hc'
            split at hb' <;> split at hc' <;> simp_all
            · rw [hb c (by omega)] at hc'; cases hc'
            · rw [hb b (by omega)] at hb'; cases hb'
            · rw [hb b (by omega)] at hb'; cases hb'
          · intro b
            simp only [Sys.set, upd]
            split
            · trivial
            · exact (hC.now b).congr rfl
      · cases he
    · cases he
  | arm a =>
    simp only [exec] at he
    split at he
    · rename_i e c hp
      cases he
      cases c with
      | lookup key => exact rd a _ _ rfl rfl rfl
      | walk => exact rd a _ _ rfl rfl rfl
      | update key => exact wr a _ _ rfl (by rw [hp]; rfl) rfl trivial
      | delete key => exact wr a _ _ rfl (by rw [hp]; rfl) rfl trivial
    · cases he
  | run a =>
    simp only [exec, bind, Except.bind, pure, Except.pure] at he
    split at he
    · cases he
    · cases he
    · rename_i ph _ _ hp
      cases hs : stepU s.st ph with
      | error e => rw [hs] at he; cases he
      | ok r =>
        obtain ⟨ph', st'⟩ := r
        rw [hs] at he
        cases he
        exact wr a _ _ rfl (by rw [hp]; rfl) rfl trivial
    · cases he
    · cases he
    · cases he
    · rename_i ph _ _ _ hp
      cases hs : stepD s.st ph with
      | error e => rw [hs] at he; cases he
      | ok r =>
        obtain ⟨ph', st'⟩ := r
        rw [hs] at he
        cases he
        have hg := hC.now a
        rw [hp] at hg
        exact wr a _ _ rfl (by rw [hp]; rfl) rfl (stepD_genNow hs hg)
    · cases he
    · rename_i ph _ hp
      cases hs : stepR s.st ph with
      | error e => rw [hs] at he; cases he
      | ok r =>
        rw [hs] at he
        cases he
        exact rd a _ _ rfl rfl rfl
    · cases he
  | publish a value =>
    simp only [exec, bind, Except.bind, pure, Except.pure] at he
    split at he
    · rename_i hp
      simp only [Option.some.injEq] at he
      split at he
      · cases he
      · cases he
        exact wr a _ _ rfl (by rw [hp]; rfl) rfl trivial
    · rename_i hp
      simp only [Option.some.injEq] at he
      split at he
      · cases he
      · cases he
        exact wr a _ _ rfl (by rw [hp]; rfl) rfl trivial
    · cases he
  | build a value =>
    simp only [exec, bind, Except.bind, pure, Except.pure] at he
    split at he
    · rename_i hp
      simp only [Option.some.injEq] at he
      split at he
      · cases he
      · cases he
        exact wr a _ _ rfl (by rw [hp]; rfl) rfl trivial
    · rename_i cur hp
      split at he
      · cases he
      simp only [Option.some.injEq] at he
      split at he
      · cases he
      · rename_i r hb
        cases he
        refine wr a _ _ rfl (by rw [hp]; rfl) rfl ?_
        intro hk x
        unfold buildD at hb
        simp only [hk, pure, Except.pure, Except.ok.injEq] at hb
        rw [← hb]; rfl
    · cases he
  | commit a =>
    simp only [exec] at he
    split at he
    · rename_i hp
      cases he
      exact wr a _ _ rfl (by rw [hp]; rfl) rfl trivial
    · rename_i hp
      cases he
      exact wr a _ _ rfl (by rw [hp]; rfl) rfl trivial
    · cases he
  | slip a =>
    obtain ⟨_, hc, hs⟩ := exec_slip_ok he
    have hw : (s.proc a).writer = true := by
      rcases hs with ⟨ph, ph', hp, _⟩ | ⟨ph, ph', hp, _⟩ <;> rw [hp] <;> rfl
    obtain ⟨b, _, hb, hl⟩ := contended_iff.1 hc
    have := h.1 a b rfl (Ne.symm hb) (.inl hw)
    rw [Proc.busy_of_locking hl] at this
    cases this
  | unlock a =>
    obtain ⟨_, ⟨b, tl, u, st', hp, hs, rfl⟩ | ⟨b, tl, u, st', hp, hs, rfl⟩⟩ := exec_unlock_ok he <;>
      exact wr a _ _ rfl (by rw [hp]; rfl) rfl trivial
  | quit a =>
    obtain ⟨_, ⟨f, op, hp, rfl⟩ | ⟨cur, hp, rfl⟩⟩ := exec_quit_ok he <;>
      exact wr a _ _ rfl (by rw [hp]; rfl) rfl trivial
  | tail a =>
    simp only [exec, bind, Except.bind, pure, Except.pure] at he
    split at he
    · rename_i hp
      simp only [Option.some.injEq] at he
      split at he
      · cases he
      · cases he
        exact wr a _ _ rfl (by rw [hp]; rfl) rfl trivial
    · rename_i hp
      simp only [Option.some.injEq] at he
      split at he
      · cases he
      · cases he
        exact wr a _ _ rfl (by rw [hp]; rfl) rfl trivial
    · cases he
  | abort a =>
    simp only [exec, bind, Except.bind, pure, Except.pure] at he
    split at he
    · rename_i hp
      simp only [Option.some.injEq] at he
      split at he
      · cases he
      · cases he
        exact wr a _ _ rfl (by rw [hp]; rfl) rfl trivial
    · rename_i hp
      simp only [Option.some.injEq] at he
      split at he
      · cases he
      · cases he
        exact wr a _ _ rfl (by rw [hp]; rfl) rfl trivial
    · cases he
  | finish a =>
    simp only [exec] at he
    split at he
    · cases he; exact rd a _ _ rfl rfl rfl
    · cases he; exact rd a _ _ rfl rfl rfl
    · cases he; exact rd a _ _ rfl rfl rfl
    · cases he
  | flush a =>
    simp only [exec] at he
    split at he
    · split at he
      · cases he; exact rd a _ _ rfl rfl rfl
      · cases he
    · cases he
  | block =>
    simp only [exec, bind, Except.bind, pure, Except.pure, Option.some.injEq] at he
    split at he
    · cases he
    · rename_i hs
      cases he
      refine ⟨hC.one, fun b => (hC.now b).congr ?_⟩
      unfold St.blockStep at hs
      (repeat' split at hs) <;> first | (cases hs; rfl) | cases hs

theorem Run.calls {env : Env} {s : Sys} {σ : Spec} (h : Run env Calls s σ) : Run env Calm s σ ∧ CInv s := by
  induction h with
  | init n => exact ⟨.init n, ⟨fun a _ ha => by (cases ha), fun a => trivial⟩⟩
  | reload _ hs ih => exact ⟨.reload ih.1 hs, ⟨fun a _ ha => by (cases ha), fun a => trivial⟩⟩
  | step h1 h2 h3 h4 ih => exact ⟨.step ih.1 h2 (ih.2.calm h3) h4, exec_calls ih.2 h3 h4⟩

end Radix
