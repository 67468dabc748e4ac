import Verif.Sys.Complete
import Verif.Sys.Read
/-!
# Trees without 256-slot nodes

If fewer than 128 bytes can follow any sequence of bytes in the keys, no node gets 256 slots, and no delete goes without locks.
-/
set_option autoImplicit false
namespace Radix
open T

/-- Whatever the beginning, fewer than 128 bytes follow it in the keys. -/
def Env.Narrow (env : Env) : Prop :=
  ∀ (q : Key) (cs : List UInt8), cs.Nodup → (∀ c ∈ cs, ∃ k, env.keys k ∧ q ++ [c] <+: k) → cs.length < 128

/-- Calls of updates and deletes (`PrepareUpdate`, `PrepareDelete`, `Finalize`, `Abort`) do not overlap; any number of operations may be prepared
at the same time.  (Lookups and walks begin when there is a block, see C35; an `Abort` does not release the locks of others, see C08.) -/
def WholeCalls (s : Sys) (act : Act) : Prop :=
  (∀ a b, act.who = some a → a ≠ b → ((s.proc a).writer = true ∨ ∃ c, act = .begin a c ∧ c.reads = false) → (s.proc b).busy = false) ∧
  match act with
  | .begin _ (.lookup _) => 0 < s.st.nblocks
  | .begin _ .walk => 0 < s.st.nblocks
  | .quit a => Calm s (.quit a)
  | .abort a => Calm s (.abort a)
  | _ => True

/-- No prepared delete goes without locks. -/
def Sys.Locking (s : Sys) : Prop :=
  (∀ a cur, s.proc a = .del (.held cur) → cur.op.kind ≠ .deleteLeaf256) ∧ ∀ a cur cm, s.proc a = .delB cur cm → cur.op.kind ≠ .deleteLeaf256

theorem WholeCalls.calls {s : Sys} {act : Act} (h : WholeCalls s act) (hl : s.Locking) : Calls s act := by
  refine ⟨h.1, ?_⟩
  cases act with
  | begin a c => cases c <;> exact h.2
  | publish a v => exact fun cur hp hk => absurd hk (hl.1 a cur hp)
  | commit a => exact fun cur cm hp hk => absurd hk (hl.2 a cur cm hp)
  | quit a =>
    intro cur hp
    have := h.2
    simp only [Calm, hp] at this
    exact this
  | abort a =>
    intro cur hp
    have := h.2
    simp only [Calm, hp] at this
    exact this
  | _ => trivial

theorem Calls.whole {s : Sys} {act : Act} (h : Calls s act) : WholeCalls s act := by
  refine ⟨h.1, ?_⟩
  cases act with
  | begin a c => cases c <;> exact h.2
  | quit a =>
    simp only [Calm]
    split
    · rename_i cur hp; exact h.2 cur hp
    · trivial
  | abort a =>
    simp only [Calm]
    split
    · rename_i cur hp; exact h.2 cur hp
    · trivial
  | _ => trivial

/-- No node has 256 slots. -/
def T.NoBig (t : T) : Prop := ∀ p, ¬ t.HasBig p

theorem At.hasBig {t : T} {q : Key} {n : Nat} {pfx : List UInt8} {ch : UInt8 → T} (h : At t q (.node n pfx true ch)) : ∃ p, t.HasBig p := by
  generalize hu : T.node n pfx true ch = u at h
  induction h with
  | here t => subst hu; exact ⟨pfx, .inl ⟨rfl, rfl⟩⟩
  | down _ ih =>
    obtain ⟨p, hp⟩ := ih hu
    exact ⟨_, .inr ⟨_, p, rfl, hp⟩⟩

/-- A tree grown from one without 256-slot nodes has none. -/
theorem T.Dense.noBig_of_narrow {env : Env} (hn : env.Narrow) {t : T} {q : Key} (hd : t.Dense) (hw : t.WF env.P q) : t.NoBig := by
  induction t generalizing q with
  | empty => intro p h; cases h
  | leaf => intro p h; cases h
  | node n pfx big ch ih =>
    rintro p (⟨hb, _⟩ | ⟨c, r, _, h⟩)
    · have h1 := hd.1 hb
      have h2 := hn (q ++ pfx) (kidsOf (present ch)) (allBytes_nodup.sublist List.filter_sublist) fun c hc => by
        have hp : present ch c = true := by
          unfold kidsOf at hc
          exact (List.mem_filter.1 hc).2
        have hk := hw.2.2 c
        cases hcc : ch c with
        | empty => rw [present, hcc] at hp; cases hp
        | leaf k v =>
          rw [hcc] at hk
          exact ⟨k, hk.2.1, by simpa using hk.1⟩
        | node n2 pfx2 big2 ch2 =>
          rw [hcc] at hk
          obtain ⟨⟨_, k, v, d, hP, hpre⟩, _⟩ := hk
          refine ⟨k, hP.1, ?_⟩
          refine List.IsPrefix.trans ?_ hpre
          simp only [List.append_assoc]
          exact ⟨pfx2 ++ [d], by simp⟩
      have : cntOf (present ch) = (kidsOf (present ch)).length := rfl
      omega
    · exact ih c (hd.2 c) (hw.2.2 c) r h

theorem T.NoBig.dense {t : T} (h : t.NoBig) : t.Dense := by
  induction t with
  | empty => trivial
  | leaf => trivial
  | node n pfx big ch ih =>
    refine ⟨fun hb => absurd (.inl ⟨hb, rfl⟩) (h pfx), fun c => ih c fun p hp => h (pfx ++ c :: p) (.inr ⟨c, p, rfl, hp⟩)⟩

/-- The invariant, for trees without 256-slot nodes. -/
def NInv (env : Env) (s : Sys) (σ : Spec) : Prop :=
  ∃ t seen, Inv env s σ t seen ∧ t.NoBig ∧ ∀ b x, seen b x → x.NoBig

theorem NInv.locking {env : Env} {s : Sys} {σ : Spec} (h : NInv env s σ) : s.Locking := by
  obtain ⟨t, seen, hI, _, hs⟩ := h
  constructor
  · intro a cur hp hk
    have hP := hI.proc a
    rw [hp] at hP
    obtain ⟨_, ⟨e, _⟩ | ⟨e, _⟩ | ⟨e, _⟩ | ⟨_, _, _, t0, q, n, pfx, ch, k, h1, h2, _⟩⟩ := hP
    · rw [hk] at e; cases e
    · rw [hk] at e; rcases e with e | e <;> cases e
    · rw [hk] at e; cases e
    · obtain ⟨p, hp⟩ := h2.hasBig
      exact hs a t0 h1 p hp
  · intro a cur cm hp hk
    have hP := hI.proc a
    rw [hp] at hP
    obtain ⟨_, _, _, _, _, _, _, ⟨e, _⟩ | ⟨e, _⟩ | ⟨e, _⟩ | ⟨_, _, _, t0, q, n, pfx, ch, k, h1, h2, _⟩⟩ := hP
    · rw [hk] at e; cases e
    · rw [hk] at e; rcases e with e | e <;> cases e
    · rw [hk] at e; cases e
    · obtain ⟨p, hp⟩ := h2.hasBig
      exact hs a t0 h1 p hp

theorem NInv.step {env : Env} (hn : env.Narrow) {s s' : Sys} {σ : Spec} {act : Act} {ev : Ev} (h : NInv env s σ) (hall : env.Allowed s act)
    (hcalm : Calm s act) (he : exec env.fetch s act = some (.ok (s', ev))) : NInv env s' (σ.next ev) := by
  obtain ⟨t, seen, hI, hb, hs⟩ := h
  rcases exec_inv hI hall hcalm he with ⟨s1, ev1, t', seen', e, hI', ⟨_, h2⟩, h3, _, h5, _⟩ | ⟨e, h, _⟩
  · injection e with e; injection e with e1 e2; subst e1 e2
    have hb' : t'.NoBig := by
      by_cases hd : s.DelPub act
      · exact fun p hp => hb p (h5 hd p hp)
      · exact (h3 hd hb.dense).noBig_of_narrow hn hI'.mem.core.wf
    refine ⟨t', seen', hI', hb', fun b x hx => ?_⟩
    rcases h2 b x hx with h | rfl
    · exact hs b x h
    · exact hb'
  · cases h

/-- With few bytes at each position, calm executions have no deletes without locks. -/
theorem Run.narrow {env : Env} (hn : env.Narrow) {s : Sys} {σ : Spec} (h : Run env Calm s σ) : NInv env s σ := by
  induction h with
  | init n => exact ⟨_, _, new_inv env n, fun p h => (by cases h), fun _ _ h => h.elim⟩
  | reload _ hs ih =>
    obtain ⟨t, seen, hI, hb, _⟩ := ih
    exact ⟨t, _, restore_inv hI hs, hb, fun _ _ h => h.elim⟩
  | step _ h1 h2 h3 ih => exact ih.step hn h1 h2 h3

/-- Then calls that do not overlap are calm. -/
theorem Run.wholeCalls {env : Env} (hn : env.Narrow) {s : Sys} {σ : Spec} (h : Run env WholeCalls s σ) : Run env Calls s σ := by
  induction h with
  | init n => exact .init n
  | reload _ hs ih => exact .reload ih hs
  | step _ h1 h2 h3 ih => exact .step ih h1 (h2.calls (ih.calls.1.narrow hn).locking) h3

end Radix
