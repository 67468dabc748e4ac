import Verif.Sys.Final
/-!
# The remaining steps, and the invariant for executions
-/
namespace Radix
open T

/-- `unlockNodes3` called with a zero node in the place of the child. -/
theorem unlockNodes3_zero {st : St} {child node : Nat} (hc : child ≠ 0) (h : allOdd st [child, node]) :
    st.unlockNodes3 0 node child =
      if (lockDiffer 0 child && lockDiffer 0 node) = true then
        ({ st with locks := bumpLocks st.locks [child, node] } : St).unlockNode 0
      else .ok { st with locks := bumpLocks st.locks [child, node] } := by
  have h2 := unlockNodes2_spec (st := st) (node := node) (parent := child) (by
    unfold lockList2; rw [if_neg hc]
    intro n hn; apply h; simp only [List.mem_cons, List.not_mem_nil, or_false] at hn ⊢; exact hn.symm)
  have e : bumpLocks st.locks [child, node] = bumpLocks st.locks (lockList2 node child) := by
    apply bumpLocks_perm
    intro n
    unfold lockList2; rw [if_neg hc]
    simp only [List.mem_cons, List.not_mem_nil, or_false]
    exact Or.comm
  rw [e]
  unfold St.unlockNodes2 at h2
  unfold St.unlockNodes3
  rw [if_neg hc] at h2 ⊢
  simp only [bind, Except.bind, pure, Except.pure] at h2 ⊢
  cases hu : st.unlockNode child with
  | error e => rw [hu] at h2; cases h2
  | ok s1 =>
    rw [hu] at h2
    simp only at h2 ⊢
    by_cases hd : lockDiffer node child = true
    · rw [if_pos hd] at h2 ⊢
      rw [h2]
    · rw [if_neg hd] at h2 ⊢
      injection h2 with h2
      rw [h2]

/-- `st'` is the state of `s` after the locks of allocator `a` are released and its operation has ended. -/
def Released (s : Sys) (a : Nat) (st' : St) : Prop :=
  st' = { s.st with
    locks := bumpLocks s.st.locks (s.proc a).unl.list
    rootLock := s.st.rootLock - (s.proc a).unl.rootN
    resv := upd s.st.resv a maxUint64 }

section
variable {env : Env} {s : Sys} {σ : Spec} {t : T} {seen : Nat → T → Prop} (hI : Inv env s σ t seen) {a : Nat}
include hI

/-- The end of an operation. -/
theorem Inv.done {st' : St} (hact : (s.proc a).active = true)
    (he : TailEff env.P a s.st st' (s.proc a).unl.list (s.proc a).unl.rootN (s.proc a).items (s.proc a).pend) :
    Inv env (s.set a st' .idle) σ t seen := by
  have ha := hI.lt_of_active hact
  have hother : ∀ b, b ≠ a → (s.set a st' .idle).proc b = s.proc b := fun b hb => Sys.set_other _ _ _ _ hb
  have hpend : s.pend = fun x => (s.set a st' .idle).pend x + (s.proc a).pend x := by
    funext x
    have := pend_step (s := s) (s' := s.set a st' .idle) ha he.nalloc hother x
    rw [Sys.set_self, show (Proc.idle).pend x = 0 from rfl] at this
    omega
  have hitems : (s.set a st' .idle).items + (s.proc a).items = s.items := by
    have := items_step (s := s) (s' := s.set a st' .idle) ha he.nalloc hother
    rw [Sys.set_self, show (Proc.idle).items = 0 from rfl] at this
    omega
  have hcore : CoreN env.P st' t (s.set a st' .idle).pend := by
    refine he.core t _ ?_
    rw [← hpend]; exact hI.mem.core
  have hL : LInv (s.set a st' .idle) := by
    refine hI.locks.release (a := a) he.locks he.rootLock ?_ ?_
    · intro b hb; rw [hother b hb]
    · rw [Sys.set_self]; rfl
  have hn : st'.nblocks = s.st.nblocks := by unfold St.nblocks; rw [he.baNext, he.baReady]
  have hev : Evo s (s.set a st' .idle) t t [] := by
    refine ⟨gen_bump_le he.locks, ?_, .refl _ _, by simp, Nat.le_of_eq he.baNext.symm, Nat.le_of_eq hn.symm⟩
    rintro n hg ⟨b, tl, h1, m, h2, h3⟩
    by_cases hb : b = a
    · subst hb
      exfalso
      have : (s.set b st' .idle).st.gen n = s.st.gen n + 1 :=
        gen_bump_same he.locks ⟨m, by rw [Proc.unl_of_tail h1]; exact h2, h3⟩
      have hodd := hI.locks.odd b m (by rw [Proc.unl_of_tail h1]; exact h2)
      rw [gen_congr h3] at hodd
      omega
    · exact ⟨b, tl, by rw [hother b hb]; exact h1, m, h2, h3⟩
  refine ⟨hL, ?_, ?_⟩
  · refine hI.mem.quiet (a := a) hcore he.nalloc (Nat.le_of_eq he.baNext.symm) (fun x _ => by rw [Sys.set_st, he.mem])
      he.free he.epoch hother (fun b hb => by rw [Sys.set_st, he.resv, upd_of_ne _ _ hb]) (fun h => by omega) ?_
      (fun _ => by rw [Sys.set_st, he.resv, upd_same]) ?_ rfl (fun _ _ => rfl) (fun _ _ => rfl)
      (fun x hx => by rw [Sys.set_self, Proc.priv_none rfl] at hx; omega) ?_
    · rw [Sys.set_st, he.total]; omega
    · rw [Sys.set_self]; intro e c h; cases h
    · rw [Sys.set_self]; intro h; cases h
  · intro b
    by_cases hb : b = a
    · subst hb; rw [Sys.set_self]; trivial
    · rw [hother b hb]
      exact hev.proc (fun _ h => h) hI.mem.core hcore.repr (hI.mem.keeps b fun x _ => by rw [Sys.set_st, he.mem]) (by simp) (fun _ _ => rfl) (hI.proc b)

/-- The second part of `Finalize`. -/
theorem tail_inv {tl : Tail} (hp : (s.proc a).tail? = some tl) (hact : (s.proc a).active = true)
    (hP : (∀ n slots, tl.free = some (n, slots) → NewPos s.st n slots) ∧ ∀ c n p, tl.unl = .three c n p → n ≠ 0) :
    (∃ n, tl.free = some (n, recyclerLen) ∧ s.st.runTail a tl = .error .index) ∨
    ∃ st', s.st.runTail a tl = .ok st' ∧ Inv env (s.set a st' .idle) σ t seen := by
  have ha := hI.lt_of_active hact
  have hu := Proc.unl_of_tail hp
  have hodd := hI.locks.odd a
  rw [hu] at hodd
  rcases runTail_spec (P := env.P) ha hodd hP.2 hI.mem.core.ok hP.1 with h | ⟨_, st', h, he⟩
  · exact .inl h
  · refine .inr ⟨st', h, hI.done hact ?_⟩
    have e1 : (s.proc a).pend = tl.seg := by funext x; unfold Proc.pend; rw [hp]
    have e2 : (s.proc a).items = tl.items := by unfold Proc.items; rw [hp]
    rw [hu, e1, e2]
    exact he

/-- A step of an operation that has published its change or is aborted. -/
theorem Inv.part {st' : St} {p' : Proc} (hact : (s.proc a).active = true) (hact' : p'.active = true)
    (hpend : p'.pend = (s.proc a).pend) (hitems : p'.items = (s.proc a).items) (hcm : p'.cm? = none) (hsm : SameMem s.st st')
    (hep : st'.epoch = s.st.epoch) (hresv : st'.resv = s.st.resv) (htot : st'.total = s.st.total) (hgens : ∀ n, s.st.gen n ≤ st'.gen n)
    (hwin : ∀ n tl, (s.proc a).tail? = some tl → st'.gen n / 2 = s.st.gen n / 2 → (∃ m ∈ tl.unl.list, sameLock m n) →
      ∃ tl', p'.tail? = some tl' ∧ ∃ m ∈ tl'.unl.list, sameLock m n)
    (hL : LInv (s.set a st' p')) (hP : PInv env s t (seen a) p') : Inv env (s.set a st' p') σ t seen := by
  have ha := hI.lt_of_active hact
  have hpend : (s.set a st' p').pend = s.pend := by
    apply pend_congr hsm.nalloc
    intro b
    by_cases hb : b = a
    · subst hb; rw [Sys.set_self, hpend]
    · rw [Sys.set_other _ _ _ _ hb]
  have hitems : (s.set a st' p').items = s.items := by
    apply items_congr hsm.nalloc
    intro b
    by_cases hb : b = a
    · subst hb; rw [Sys.set_self, hitems]
    · rw [Sys.set_other _ _ _ _ hb]
  have he : Evo s (s.set a st' p') t t [] := by
    refine ⟨hgens, ?_, .refl _ _, by simp, Nat.le_of_eq hsm.baNext.symm, Nat.le_of_eq hsm.nblocks.symm⟩
    rintro n hg ⟨b, tl, h1, h2⟩
    by_cases hb : b = a
    · subst hb
      obtain ⟨tl', h3, h4⟩ := hwin n tl h1 hg h2
      exact ⟨b, tl', by rw [Sys.set_self]; exact h3, h4⟩
    · exact ⟨b, tl, by rw [Sys.set_other _ _ _ _ hb]; exact h1, h2⟩
  refine ⟨hL, ?_, ?_⟩
  · refine hI.mem.quiet (a := a) ?_ hsm.nalloc (Nat.le_of_eq hsm.baNext.symm) (fun x _ => by rw [Sys.set_st, hsm.mem])
      (fun p _ x => Nat.le_of_eq (hsm.freeP p x)) (Nat.le_of_eq hep.symm) (fun b hb => Sys.set_other _ _ _ _ hb)
      (fun b _ => by rw [Sys.set_st, hresv]) (fun h => by omega) ?_ ?_ ?_ rfl (fun _ _ => rfl) (fun _ _ => rfl)
      (fun x h => by rw [Sys.set_self, Proc.priv_none hcm] at h; omega) ?_
    · rw [hpend]; exact hsm.core hI.mem.core
    · rw [hitems, Sys.set_st, htot]
    · rw [Sys.set_self, hact']; simp
    · rw [Sys.set_self]; intro e c h; rw [h] at hact'; simp [Proc.active] at hact'
    · intro _; exact .inl ⟨hact, by rw [Sys.set_st, hresv], rfl, rfl⟩
  · intro b
    by_cases hb : b = a
    · subst hb
      rw [Sys.set_self]
      refine he.proc (fun _ h => h) hI.mem.core (hsm.core hI.mem.core).repr (fun x h => ?_) (by simp) (fun _ _ => rfl) hP
      rw [Sys.set_st, hsm.mem]
    · rw [Sys.set_other _ _ _ _ hb]
      refine he.proc (fun _ h => h) hI.mem.core (hsm.core hI.mem.core).repr (fun x h => ?_) (by simp) (fun _ _ => rfl) (hI.proc b)
      rw [Sys.set_st, hsm.mem]

/-- The release of one lock. -/
theorem unlock_inv {tl : Tail} (hp : (s.proc a).tail? = some tl) (hact : (s.proc a).active = true)
    (h3 : ∀ c n p, tl.unl = .three c n p → n ≠ 0) {r} (hr : s.st.unlockOne tl.unl = some r) {P : Unlock → Proc}
    (hP1 : ∀ u, (P u).tail? = some { tl with unl := u }) (hP2 : ∀ u, (P u).active = true) (hP3 : ∀ u, (P u).cm? = none)
    (hP4 : ∀ u, (∀ c n p, u = .three c n p → n ≠ 0) → PInv env s t (seen a) (P u)) :
    ∃ u st', r = .ok (u, st') ∧ Inv env (s.set a st' (P u)) σ t seen := by
  have hodd := hI.locks.odd a
  have hu := Proc.unl_of_tail hp
  rw [hu] at hodd
  have hPu : ∀ u, (P u).unl = u := fun u => by rw [Proc.unl_of_tail (hP1 u)]
  have hpend : ∀ u, (P u).pend = (s.proc a).pend := by
    intro u; funext x; unfold Proc.pend; rw [hP1, hp]; rfl
  have hitems : ∀ u, (P u).items = (s.proc a).items := by
    intro u; unfold Proc.items; rw [hP1, hp]
  rcases unlockOne_spec hodd h3 hr with ⟨e, rfl⟩ | ⟨n, l, h0, h1, h2, h4, rfl⟩
  · refine ⟨_, _, rfl, hI.part hact (hP2 _) (hpend _) (hitems _) (hP3 _) (.rootLock _ _) rfl rfl (total_congr rfl rfl rfl)
      (fun _ => Int.le_refl _) ?_ ?_ (hP4 _ (by intro c n p h; cases h))⟩
    · intro n tl' h1 _ h2
      rw [hp] at h1
      injection h1 with h1
      subst h1
      rw [e] at h2
      obtain ⟨m, hm, _⟩ := h2
      simp [Unlock.list] at hm
    · refine hI.locks.release (a := a) ?_ ?_ ?_ ?_
      · rw [hu, e]; simp [Unlock.list, bumpLocks_nil, Sys.set_st]
      · rw [hu, e]; rfl
      · intro b hb; rw [Sys.set_other _ _ _ _ hb]
      · rw [Sys.set_self, hPu]
  · refine ⟨_, _, rfl, hI.part hact (hP2 _) (hpend _) (hitems _) (hP3 _) (.locks _ _) rfl rfl (total_congr rfl rfl rfl)
      (gen_bump_le rfl) ?_ ?_ (hP4 _ (by intro c n p h; cases h))⟩
    · intro x tl' g1 g2 g3
      rw [hp] at g1
      injection g1 with g1
      subst g1
      obtain ⟨m, hm, hs⟩ := g3
      refine ⟨_, hP1 _, ?_⟩
      rcases h2 m hm with h | h
      · exfalso
        have hsx := sameLock_trans (sameLock_comm.1 h) hs
        have hb : ({ s.st with locks := bumpLocks s.st.locks [n] } : St).gen x = s.st.gen x + 1 :=
          bump_gen_same ⟨n, by simp, hsx⟩
        have ho : s.st.gen x % 2 = 1 := by rw [← gen_congr hs]; exact hodd m hm
        have g2' : (s.st.gen x + 1) / 2 = s.st.gen x / 2 := by rw [← hb]; exact g2
        omega
      · exact ⟨m, h, hs⟩
    · refine hI.locks.releaseOne (a := a) (n := n) rfl rfl (fun b hb => by rw [Sys.set_other _ _ _ _ hb]) ?_ ?_ ?_ ?_ ?_
      · rw [hu]; exact h0
      · rw [Sys.set_self, hPu, hu]; exact h1
      · rw [Sys.set_self, hPu, hu]; exact h2
      · rw [hu]; exact h4
      · rw [Sys.set_self, hPu]; simp

/-- Ending an operation without publishing anything. -/
theorem Inv.quit {st1 : St} (hact : (s.proc a).active = true) (ht : (s.proc a).plain = true)
    (h1 : st1 = { s.st with locks := bumpLocks s.st.locks (s.proc a).unl.list, rootLock := s.st.rootLock - (s.proc a).unl.rootN }) :
    Released s a (st1.endOp a) ∧ Inv env (s.set a (st1.endOp a) .idle) σ t seen := by
  refine ⟨by rw [h1]; rfl, hI.done hact ?_⟩
  rw [Proc.pend_none ht, Proc.items_none (Proc.plain_tail ht)]
  have hm : SameMem s.st st1 := by rw [h1]; exact .unlocked _ _ _
  have hm2 := hm.trans (.endOp _ a)
  refine ⟨hm2.mem, hm2.root, by rw [h1]; rfl, by rw [h1]; rfl, by rw [h1]; exact Nat.le_refl _, by rw [h1]; rfl,
    hm2.nalloc, hm2.baNext, hm2.baReady, ?_, ?_, ?_⟩
  · rw [Int.add_zero, h1]; exact total_congr rfl rfl rfl
  · intro p _ x; exact Nat.le_of_eq (hm2.freeP p x)
  · intro t N hc
    have : (fun x => N x + 0) = N := rfl
    rw [this] at hc
    exact hm2.core hc

theorem abortU_inv {found : Bool} {op : UpdOp} (hp : s.proc a = .upd (.held found op)) :
    ∃ st', abortU s.st a op = .ok st' ∧ Released s a st' ∧ Inv env (s.set a st' .idle) σ t seen := by
  have hact : (s.proc a).active = true := by rw [hp]; rfl
  have ht : (s.proc a).plain = true := by rw [hp]; rfl
  have hu : (s.proc a).unl = op.unl := by rw [hp]; rfl
  have hodd := hI.locks.odd a
  have hul := unlockBy_spec (u := (s.proc a).unl) hodd (by
    rw [hu]; intro c n p e
    unfold UpdOp.unl at e
    split at e <;> cases e)
  unfold abortU
  cases hk : op.kind
  case replaceEmptyRootWithLeaf | replaceLeafRootWithNode | rootLeafUpdate =>
    have e : op.unl = .root := by simp [UpdOp.unl, hk]
    refine ⟨_, rfl, hI.quit hact ht ?_⟩
    rw [hu, e] at hul ⊢
    simp only [St.unlockBy, Except.ok.injEq] at hul
    exact hul
  all_goals
    have e : op.unl = .two op.node op.parent := by simp [UpdOp.unl, hk]
    have hul' := hul
    rw [hu, e] at hul'
    simp only [St.unlockBy] at hul'
    refine ⟨_, by (rw [hul']; rfl), hI.quit hact ht ?_⟩
    rw [hu, e]

theorem abortD_inv {cur : DelCur} (hp : s.proc a = .del (.held cur)) (hcalm : Calm s (.abort a)) :
    (abortD s.st a cur.op = .error .unlock ∧ cur.op.kind = .replaceNodeWithNode ∧ cur.op.parent = 0) ∨
    ∃ st', abortD s.st a cur.op = .ok st' ∧ Released s a st' ∧ Inv env (s.set a st' .idle) σ t seen := by
  have hact : (s.proc a).active = true := by rw [hp]; rfl
  have ht : (s.proc a).plain = true := by rw [hp]; rfl
  have hu : (s.proc a).unl = cur.op.unl := by rw [hp]; rfl
  have hodd := hI.locks.odd a
  obtain ⟨_, _, h3⟩ := held_del hI hp
  have hul := unlockBy_spec (u := (s.proc a).unl) hodd (by rw [hu]; exact h3)
  have hP := hI.proc a
  rw [hp] at hP
  simp only [Calm, hp] at hcalm
  unfold abortD
  cases hk : cur.op.kind
  case deleteRoot =>
    have e : cur.op.unl = .root := by simp [DelOp.unl, hk]
    refine .inr ⟨_, rfl, hI.quit hact ht ?_⟩
    rw [hu, e] at hul ⊢
    simp only [St.unlockBy, Except.ok.injEq] at hul
    exact hul
  case deleteLeaf | replaceNodeWithLeaf =>
    have e : cur.op.unl = .two cur.op.node cur.op.parent := by simp [DelOp.unl, hk]
    have hul' := hul
    rw [hu, e] at hul'
    simp only [St.unlockBy] at hul'
    refine .inr ⟨_, by (rw [hul']; rfl), hI.quit hact ht ?_⟩
    rw [hu, e]
  case replaceNodeWithNode =>
    have e : cur.op.unl = .three cur.op.child cur.op.node cur.op.parent := by simp [DelOp.unl, hk]
    rw [hu, e] at hodd
    have hchild : cur.op.child ≠ 0 := by
      obtain ⟨_, ⟨h1, _⟩ | ⟨h1, _⟩ | ⟨_, q, pfx, k, k2, lk, lv, pfx2, big2, kids, h2, _⟩ | ⟨h1, _⟩⟩ := hP
      · rw [hk] at h1; cases h1
      · rw [hk] at h1; rcases h1 with h1 | h1 <;> cases h1
      · have g := (h2.at'.inBlocks hI.mem.core.inb).2 k2
        rw [ch2_snd] at g
        have := g.1.1
        omega
      · rw [hk] at h1; cases h1
    simp only [Unlock.list, lockList3] at hodd
    by_cases hpar : cur.op.parent = 0
    · rw [if_pos hpar] at hodd
      have hz := unlockNodes3_zero hchild hodd
      by_cases hd : (lockDiffer 0 cur.op.child && lockDiffer 0 cur.op.node) = true
      · left
        rw [if_pos hd] at hz
        rw [Bool.and_eq_true, lockDiffer_iff, lockDiffer_iff] at hd
        have h0 : s.st.gen 0 % 2 = 0 := by
          rcases hcalm hk hpar with h | h | h
          · exact absurd h hd.2
          · exact absurd h hd.1
          · exact h
        refine ⟨?_, rfl, hpar⟩
        have hgen : ({ s.st with locks := bumpLocks s.st.locks [cur.op.child, cur.op.node] } : St).gen 0 = s.st.gen 0 := by
          apply bump_gen_other
          rintro ⟨m, hm, hs⟩
          simp only [List.mem_cons, List.not_mem_nil, or_false] at hm
          rcases hm with rfl | rfl
          · exact hd.1 (sameLock_comm.1 hs)
          · exact hd.2 (sameLock_comm.1 hs)
        simp only [bind, Except.bind]
        rw [hpar, hz]
        unfold St.unlockNode
        rw [hgen, if_neg (by omega)]
      · rw [if_neg hd] at hz
        refine .inr ⟨_, by (rw [hpar, hz]; rfl), hI.quit hact ht ?_⟩
        rw [hu, e]
        simp only [Unlock.list, Unlock.rootN, lockList3, if_pos hpar, Int.sub_zero]
    · rw [if_neg hpar] at hodd
      have hun := unlockNodes3_spec (st := s.st) (child := cur.op.parent) (node := cur.op.node) hchild (by
        intro n hn
        apply hodd
        simp only [List.mem_cons, List.not_mem_nil, or_false] at hn ⊢
        rcases hn with h | h | h <;> simp [h])
      refine .inr ⟨_, by (rw [hun]; rfl), hI.quit hact ht ?_⟩
      rw [hu, e]
      simp only [Unlock.list, Unlock.rootN, lockList3, if_neg hpar, Int.sub_zero]
      congr 1
      apply bumpLocks_perm
      intro n
      simp only [List.mem_cons, List.not_mem_nil, or_false]
      constructor
      · rintro (h | h | h) <;> simp [h]
      · rintro (h | h | h) <;> simp [h]
  all_goals
    have e : cur.op.unl = .none := by simp [DelOp.unl, hk]
    refine .inr ⟨_, rfl, hI.quit hact ht ?_⟩
    rw [hu, e]
    simp [Unlock.list, Unlock.rootN, bumpLocks_nil]

/-- The beginning of `Abort`. -/
theorem Inv.leave {u : Unlock} {p' : Proc} (hact : (s.proc a).active = true) (ht : (s.proc a).plain = true)
    (hp' : p'.tail? = some { unl := u }) (hact' : p'.active = true) (hcm : p'.cm? = none) (hP : PInv env s t (seen a) p')
    (h1 : ∀ m ∈ u.list, ∃ m' ∈ (s.proc a).unl.list, sameLock m' m)
    (h2 : ∀ m ∈ (s.proc a).unl.list, ∃ m' ∈ u.list, sameLock m' m)
    (h3 : u = .root ↔ (s.proc a).unl = .root) : Inv env (s.set a s.st p') σ t seen := by
  have hu := Proc.unl_of_tail hp'
  refine hI.part hact hact' ?_ ?_ hcm (.refl _) rfl rfl rfl (fun _ => Int.le_refl _) ?_ ?_ hP
  · rw [Proc.pend_none ht]; funext x; unfold Proc.pend; rw [hp']; rfl
  · rw [Proc.items_none (Proc.plain_tail ht)]; unfold Proc.items; rw [hp']
  · intro n tl h; rw [Proc.plain_tail ht] at h; cases h
  · refine hI.locks.rename (a := a) rfl rfl (fun b hb => by rw [Sys.set_other _ _ _ _ hb]) ?_ ?_ ?_
    · rw [Sys.set_self, hu]; exact h1
    · rw [Sys.set_self, hu]; exact h2
    · rw [Sys.set_self, hu]; exact h3

theorem quitU_inv {found : Bool} {op : UpdOp} (hp : s.proc a = .upd (.held found op)) :
    Inv env (s.set a s.st (.upd (.tail false { unl := op.abortUnl }))) σ t seen := by
  have hu : (s.proc a).unl = op.unl := by rw [hp]; rfl
  have he : op.abortUnl = op.unl := by
    unfold UpdOp.abortUnl UpdOp.unl
    cases op.kind <;> rfl
  refine hI.leave (u := op.abortUnl) (by rw [hp]; rfl) (by rw [hp]; rfl) rfl rfl rfl ⟨by simp, ?_⟩ ?_ ?_ ?_
  · intro c n p e
    unfold UpdOp.abortUnl at e
    split at e <;> cases e
  · intro m hm; exact ⟨m, by rw [hu, ← he]; exact hm, sameLock_refl _⟩
  · intro m hm; exact ⟨m, by rw [he, ← hu]; exact hm, sameLock_refl _⟩
  · rw [hu, he]

theorem quitD_inv {cur : DelCur} (hp : s.proc a = .del (.held cur)) (hcalm : Calm s (.quit a)) :
    Inv env (s.set a s.st (.del (.tail false { unl := cur.op.abortUnl }))) σ t seen := by
  have hu : (s.proc a).unl = cur.op.unl := by rw [hp]; rfl
  obtain ⟨_, _, h3⟩ := held_del hI hp
  have hP := hI.proc a
  rw [hp] at hP
  simp only [Calm, hp] at hcalm
  by_cases hk : cur.op.kind = .replaceNodeWithNode
  · have e : cur.op.unl = .three cur.op.child cur.op.node cur.op.parent := by simp [DelOp.unl, hk]
    have e' : cur.op.abortUnl = .three cur.op.parent cur.op.node cur.op.child := by simp [DelOp.abortUnl, hk]
    have hchild : cur.op.child ≠ 0 := by
      obtain ⟨_, ⟨h1, _⟩ | ⟨h1, _⟩ | ⟨_, q, pfx, k, k2, lk, lv, pfx2, big2, kids, h2, _⟩ | ⟨h1, _⟩⟩ := hP
      · rw [hk] at h1; cases h1
      · rw [hk] at h1; rcases h1 with h1 | h1 <;> cases h1
      · have g := (h2.at'.inBlocks hI.mem.core.inb).2 k2
        rw [ch2_snd] at g
        have := g.1.1
        omega
      · rw [hk] at h1; cases h1
    have hn0 := h3 _ _ _ e
    refine hI.leave (u := cur.op.abortUnl) (by rw [hp]; rfl) (by rw [hp]; rfl) rfl rfl rfl ⟨by simp, ?_⟩ ?_ ?_ ?_
    · intro c n p e1
      rw [e'] at e1
      injection e1 with _ e2 _
      rw [← e2]; exact hn0
    · intro m hm
      rw [e'] at hm
      rw [hu, e]
      simp only [Unlock.list, lockList3, if_neg hchild, List.mem_cons, List.not_mem_nil, or_false] at hm ⊢
      by_cases hp0 : cur.op.parent = 0
      · rw [if_pos hp0]
        rcases hm with rfl | rfl | rfl
        · rw [hp0]
          rcases hcalm hk hp0 with h | h
          · exact ⟨cur.op.node, by simp, sameLock_comm.1 h⟩
          · exact ⟨cur.op.child, by simp, sameLock_comm.1 h⟩
        · exact ⟨_, by simp, sameLock_refl _⟩
        · exact ⟨_, by simp, sameLock_refl _⟩
      · rw [if_neg hp0]
        rcases hm with rfl | rfl | rfl <;> exact ⟨_, by simp, sameLock_refl _⟩
    · intro m hm
      rw [hu, e] at hm
      rw [e']
      simp only [Unlock.list, lockList3, if_neg hchild, List.mem_cons, List.not_mem_nil, or_false] at hm ⊢
      refine ⟨m, ?_, sameLock_refl _⟩
      split at hm
      · simp only [List.mem_cons, List.not_mem_nil, or_false] at hm
        rcases hm with rfl | rfl <;> simp
      · simp only [List.mem_cons, List.not_mem_nil, or_false] at hm
        rcases hm with rfl | rfl | rfl <;> simp
    · rw [hu, e, e']; simp
  · have he : cur.op.abortUnl = cur.op.unl := by
      unfold DelOp.abortUnl DelOp.unl
      cases h : cur.op.kind <;> first | rfl | exact absurd h hk
    refine hI.leave (u := cur.op.abortUnl) (by rw [hp]; rfl) (by rw [hp]; rfl) rfl rfl rfl ⟨by simp, ?_⟩ ?_ ?_ ?_
    · rw [he]; exact h3
    · intro m hm; exact ⟨m, by rw [hu, ← he]; exact hm, sameLock_refl _⟩
    · intro m hm; exact ⟨m, by rw [he, ← hu]; exact hm, sameLock_refl _⟩
    · rw [hu, he]

/-! ## Meeting a lock that is held for a moment -/

theorem slipU_inv {ph : UPh} (hp : s.proc a = .upd ph) {r} (h : slipU s.st ph = some r) :
    ∃ ph', r = .ok ph' ∧ Inv env (s.set a s.st (.upd ph')) σ t seen := by
  have hact : (s.proc a).active = true := by rw [hp]; rfl
  have hP := hI.proc a
  rw [hp] at hP
  cases ph with
  | root key root =>
    cases h
    exact ⟨_, rfl, hI.moveLocal hact (by rw [hp]; rfl) (by rw [hp]; rfl) rfl rfl rfl hP.1⟩
  | gen op =>
    simp only [slipU] at h
    split at h
    · rename_i he
      rw [genU_ok hI hp] at h
      cases h
      exact ⟨_, rfl, genU_inv hI hp (by omega)⟩
    · cases h
  | par op =>
    simp only [slipU] at h
    split at h
    · rename_i he
      rw [parU_ok hI hp he.1] at h
      simp only [bind, Except.bind, pure, Except.pure] at h
      split at h
      · cases h; exact ⟨_, rfl, parU_restart hI hp⟩
      · rename_i hne
        cases h
        have : op.parentGen = s.st.gen op.parent + 1 := Decidable.not_not.1 hne
        exact ⟨_, rfl, parU_inv hI hp he.1 (by omega) (.inl (hI.locks.even he.2))⟩
    · cases h
  | lock found op =>
    cases h
    exact ⟨_, rfl, hI.moveLocal hact (by rw [hp]; rfl) (by rw [hp]; rfl) rfl rfl rfl hP.1⟩
  | start key => cases h
  | ptr op => cases h
  | body op => cases h
  | held f op => cases h
  | tail b tl => cases h

theorem slipD_inv {ph : DPh} (hp : s.proc a = .del ph) {r} (h : slipD s.st ph = some r) :
    ∃ ph', r = .ok ph' ∧ Inv env (s.set a s.st (.del ph')) σ t seen := by
  have hact : (s.proc a).active = true := by rw [hp]; rfl
  have hP := hI.proc a
  rw [hp] at hP
  cases ph with
  | root key root =>
    cases h
    exact ⟨_, rfl, hI.moveLocal hact (by rw [hp]; rfl) (by rw [hp]; rfl) rfl rfl rfl hP.1⟩
  | gen cur =>
    simp only [slipD] at h
    split at h
    · rename_i he
      rw [genD_ok hI hp] at h
      cases h
      exact ⟨_, rfl, genD_inv hI hp (by omega)⟩
    · cases h
  | par cur =>
    simp only [slipD] at h
    split at h
    · rename_i he
      rw [parD_ok hI hp he.1] at h
      simp only [bind, Except.bind, pure, Except.pure] at h
      split at h
      · cases h; exact ⟨_, rfl, parD_restart hI hp⟩
      · rename_i hne
        cases h
        have : cur.op.parentGen = s.st.gen cur.op.parent + 1 := Decidable.not_not.1 hne
        exact ⟨_, rfl, parD_inv hI hp he.1 (by omega) (.inl (hI.locks.even he.2))⟩
    · cases h
  | lock cur =>
    cases h
    exact ⟨_, rfl, hI.moveLocal hact (by rw [hp]; rfl) (by rw [hp]; rfl) rfl rfl rfl hP.1⟩
  | other cur p plen => cases h
  | cgen cur p other plen =>
    simp only [slipD] at h
    split at h
    · rw [cgenD_ok hI hp] at h
      cases h
      exact ⟨_, rfl, cgenD_inv hI hp _⟩
    · cases h
  | lock3 cur other plen =>
    cases h
    exact ⟨_, rfl, hI.moveLocal hact (by rw [hp]; rfl) (by rw [hp]; rfl) rfl rfl rfl hP.1⟩
  | start key => cases h
  | ptr op => cases h
  | body op => cases h
  | cptr cur p other plen => cases h
  | miss key => cases h
  | held cur => cases h
  | tail b tl => cases h

/-! ## Beginning, counting, blocks -/

theorem begin_inv {c : Call} (hp : s.proc a = .idle) (ha : a < s.st.nalloc) (hall : env.Allowed s (.begin a c))
    (hcalm : Calm s (.begin a c)) : Inv env (s.set a s.st (.arm s.st.epoch c)) σ t seen := by
  have hother : ∀ b, b ≠ a → (s.set a s.st (.arm s.st.epoch c)).proc b = s.proc b := fun b hb => Sys.set_other _ _ _ _ hb
  have hpend : (s.set a s.st (.arm s.st.epoch c)).pend = s.pend := by
    refine pend_congr (s := s) (s' := s.set a s.st (.arm s.st.epoch c)) rfl ?_
    intro b
    by_cases hb : b = a
    · subst hb; rw [Sys.set_self, hp]; rfl
    · rw [hother b hb]
  have hitems : (s.set a s.st (.arm s.st.epoch c)).items = s.items := by
    refine items_congr (s := s) (s' := s.set a s.st (.arm s.st.epoch c)) rfl ?_
    intro b
    by_cases hb : b = a
    · subst hb; rw [Sys.set_self, hp]; rfl
    · rw [hother b hb]
  have hev : Evo s (s.set a s.st (.arm s.st.epoch c)) t t [] := by
    refine ⟨fun _ => Int.le_refl _, ?_, .refl _ _, by simp, Nat.le_refl _, Nat.le_refl _⟩
    rintro n hg ⟨b, tl, h1, h2⟩
    have hb : b ≠ a := by rintro rfl; rw [hp] at h1; cases h1
    exact ⟨b, tl, by rw [hother b hb]; exact h1, h2⟩
  refine ⟨?_, ?_, ?_⟩
  · refine hI.locks.same rfl rfl ?_
    intro b
    by_cases hb : b = a
    · subst hb; rw [Sys.set_self, hp]; rfl
    · rw [hother b hb]
  · refine hI.mem.quiet (a := a) (by rw [hpend]; exact hI.mem.core) rfl (Nat.le_refl _) (fun _ _ => rfl) (fun _ _ _ => Nat.le_refl _)
      (Nat.le_refl _) hother (fun _ _ => rfl) (fun h => by omega) (by rw [hitems]; rfl) ?_ ?_ rfl (fun _ _ => rfl) (fun _ _ => rfl)
      (fun x hx => by rw [Sys.set_self, Proc.priv_none rfl] at hx; omega) ?_
    · intro _; exact hI.mem.idle a (by rw [hp]; rfl)
    · rw [Sys.set_self]; intro e c' h
      injection h with h1 h2
      rw [← h1]; exact Nat.le_refl _
    · rw [Sys.set_self]; intro h; cases h
  · intro b
    by_cases hb : b = a
    · subst hb
      rw [Sys.set_self]
      cases c with
      | update key => exact hall
      | delete key => exact hall
      | lookup key => exact ⟨hall, hcalm⟩
      | walk => exact hcalm
    · rw [hother b hb]
      exact hev.proc (fun _ h => h) hI.mem.core hI.mem.core.repr (hI.mem.keeps b fun _ _ => rfl) (by simp) (fun _ _ => rfl) (hI.proc b)

theorem arm_inv {e : Nat} {c : Call} (hp : s.proc a = .arm e c) :
    Inv env (s.set a { s.st with resv := upd s.st.resv a e } c.start) (σ.next (.begun a c)) t (upd seen a (fun t' => t' = t)) := by
  have ha := hI.lt (a := a) (by rw [hp]; simp)
  generalize hst : ({ s.st with resv := upd s.st.resv a e } : St) = st'
  have hsm : SameMem s.st st' := by rw [← hst]; exact ⟨rfl, rfl, rfl, rfl, rfl, fun _ => ⟨rfl, rfl, rfl, rfl⟩⟩
  have hother : ∀ b, b ≠ a → (s.set a st' c.start).proc b = s.proc b := fun b hb => Sys.set_other _ _ _ _ hb
  have hct : c.start.plain = true := by cases c <;> rfl
  have hca : c.start.active = true := by cases c <;> rfl
  have hcu : c.start.unl = .none := by cases c <;> rfl
  have hpend : (s.set a st' c.start).pend = s.pend := by
    apply pend_congr hsm.nalloc
    intro b
    by_cases hb : b = a
    · subst hb; rw [Sys.set_self, hp, Proc.pend_none hct]; rfl
    · rw [hother b hb]
  have hitems : (s.set a st' c.start).items = s.items := by
    apply items_congr hsm.nalloc
    intro b
    by_cases hb : b = a
    · subst hb; rw [Sys.set_self, hp, Proc.items_none (Proc.plain_tail hct)]; rfl
    · rw [hother b hb]
  have hev : Evo s (s.set a st' c.start) t t [] := by
    refine ⟨fun _ => by rw [Sys.set_st, ← hst]; exact Int.le_refl _, ?_, .refl _ _, by simp, Nat.le_of_eq hsm.baNext.symm,
      Nat.le_of_eq hsm.nblocks.symm⟩
    rintro n hg ⟨b, tl, h1, h2⟩
    have hb : b ≠ a := by rintro rfl; rw [hp] at h1; cases h1
    exact ⟨b, tl, by rw [hother b hb]; exact h1, h2⟩
  refine ⟨?_, ?_, ?_⟩
  · refine hI.locks.same (by rw [← hst]; rfl) (by rw [← hst]; rfl) ?_
    intro b
    by_cases hb : b = a
    · subst hb; rw [Sys.set_self, hp, hcu]; rfl
    · rw [hother b hb]
  · refine hI.mem.quiet (a := a) (by rw [hpend]; exact hsm.core hI.mem.core) hsm.nalloc (Nat.le_of_eq hsm.baNext.symm)
      (fun x _ => by rw [Sys.set_st, hsm.mem]) (fun p _ x => Nat.le_of_eq (hsm.freeP p x))
      (by rw [Sys.set_st, ← hst]; exact Nat.le_refl _) hother (fun b hb => by rw [Sys.set_st, ← hst]; exact upd_of_ne _ _ hb)
      (fun h => by omega) ?_ ?_ ?_ rfl (fun b hb => upd_of_ne _ _ hb) (fun b hb => upd_of_ne _ _ hb)
      (fun x hx => by rw [Sys.set_self, Proc.priv_none (Proc.plain_cm hct)] at hx; omega) ?_
    · rw [hitems, Sys.set_st, ← hst]; congr 1
    · rw [Sys.set_self, hca]; intro h; cases h
    · rw [Sys.set_self]; intro e' c' h; rw [h] at hca; cases hca
    · intro _
      refine .inr ⟨?_, upd_same _ _ _, upd_same _ _ _⟩
      rw [Sys.set_st, ← hst]
      simp only [upd_same]
      exact hI.mem.arm a e c hp
  · intro b
    by_cases hb : b = a
    · subst hb
      rw [Sys.set_self]
      refine hev.proc (S := fun _ => False) (fun _ h => h.elim) hI.mem.core (hsm.core hI.mem.core).repr
        (fun x _ => by rw [Sys.set_st, hsm.mem]) (by simp) (fun _ _ => rfl) ?_
      have hP := hI.proc b
      rw [hp] at hP
      cases c with
      | update key => exact hP
      | delete key => exact hP
      | lookup key => exact hP
      | walk => exact hP
    · rw [hother b hb]
      refine hev.proc (fun _ h => ?_) hI.mem.core (hsm.core hI.mem.core).repr (fun x _ => by rw [Sys.set_st, hsm.mem]) (by simp) (fun _ _ => rfl) (hI.proc b)
      rw [upd_of_ne _ _ hb]; exact h

theorem flush_inv (hp : s.proc a = .idle) (ha : a < s.st.nalloc) : Inv env (s.set a (s.st.flushStats a) .idle) σ t seen := by
  have hproc : (s.set a (s.st.flushStats a) .idle).proc = s.proc := by
    show upd s.proc a Proc.idle = s.proc
    rw [← hp]; exact upd_self _ _
  have hsm := SameMem.flushStats s.st a
  have hpend : (s.set a (s.st.flushStats a) .idle).pend = s.pend := pend_congr hsm.nalloc (fun b => by rw [hproc])
  have hitems : (s.set a (s.st.flushStats a) .idle).items = s.items := items_congr hsm.nalloc (fun b => by rw [hproc])
  have hev : Evo s (s.set a (s.st.flushStats a) .idle) t t [] := by
    refine ⟨fun _ => Int.le_refl _, ?_, .refl _ _, by simp, Nat.le_of_eq hsm.baNext.symm, Nat.le_of_eq hsm.nblocks.symm⟩
    rintro n hg ⟨b, tl, h1, h2⟩
    exact ⟨b, tl, by rw [hproc]; exact h1, h2⟩
  refine ⟨hI.locks.same rfl rfl (fun b => by rw [hproc]), ?_, ?_⟩
  · refine hI.mem.quiet (a := a) (by rw [hpend]; exact hsm.core hI.mem.core) hsm.nalloc (Nat.le_of_eq hsm.baNext.symm)
      (fun x _ => by rw [Sys.set_st, hsm.mem]) (fun p _ x => Nat.le_of_eq (hsm.freeP p x))
      (Nat.le_refl _) (fun b _ => by rw [hproc]) (fun _ _ => rfl)
      (fun h => by omega) ?_ ?_ ?_ rfl (fun _ _ => rfl) (fun _ _ => rfl)
      (fun x hx => by rw [Sys.set_self, Proc.priv_none rfl] at hx; omega) ?_
    · rw [hitems, Sys.set_st, total_flushStats ha]
    · intro _; exact hI.mem.idle a (by rw [hp]; rfl)
    · rw [Sys.set_self]; intro e' c' h; cases h
    · rw [Sys.set_self]; intro h; cases h
  · intro b
    rw [hproc]
    exact hev.proc (fun _ h => h) hI.mem.core (hsm.core hI.mem.core).repr (fun x _ => by rw [Sys.set_st, hsm.mem]) (by simp) (fun _ _ => rfl) (hI.proc b)

theorem block_inv : s.st.blockStep = .error .noBlocks ∨
    ∃ st', s.st.blockStep = .ok st' ∧ Inv env ⟨st', s.proc⟩ σ t seen := by
  unfold St.blockStep
  by_cases hr : s.st.baReady = true
  · rw [if_pos hr]; exact .inr ⟨_, rfl, hI⟩
  rw [if_neg hr]
  by_cases hlt : s.st.baNext < maxBlockCount
  · rw [if_pos hlt]
    right
    refine ⟨_, rfl, ?_⟩
    generalize hst : ({ s.st with mem := fun a => if a / blockSlots = s.st.baNext then 0 else s.st.mem a, baReady := true } : St) = st'
    have hmem : ∀ x, x / blockSlots ≠ s.st.baNext → st'.mem x = s.st.mem x := by
      intro x hx; rw [← hst]; simp only; rw [if_neg hx]
    have hbn : st'.baNext = s.st.baNext := by rw [← hst]
    have hna : st'.nalloc = s.st.nalloc := by rw [← hst]
    have hal : st'.allocs = s.st.allocs := by rw [← hst]
    have hnb : s.st.nblocks ≤ st'.nblocks ∧ st'.nblocks ≤ maxBlockCount := by
      rw [← hst]; unfold St.nblocks; simp only [hr]; simp; omega
    have hfree : ∀ p x, freeP p st' x = freeP p s.st x := by
      intro p x
      exact freeP_congr p hna hbn (fun a _ x => by rw [hal]) x
    have hx : ∀ x, s.st.baNext = x / blockSlots → ∀ p, 0 < freeP p s.st x := by
      intro x e p
      unfold freeP
      rw [if_pos (by rw [e]; exact Nat.div_mul_le_self _ _)]
      omega
    have hcore : CoreN env.P st' t s.pend := by
      have hc := hI.mem.core
      refine ⟨by rw [← hst]; exact hc.root, ?_, hc.wf, by rw [hbn]; exact hc.inb, hnb.2, ?_, ?_, ?_, hc.n0⟩
      · refine hc.repr.congr ?_
        intro x hx0
        apply hmem
        intro e
        have h1 := hc.sep x
        have h2 := hx x e.symm (fun _ => true)
        unfold freeCover at h1
        omega
      · intro x; unfold freeCover; rw [hfree]; exact hc.sep x
      · intro b hb; rw [hal, hbn]; exact hc.ok b (by rw [← hna]; exact hb)
      · rw [← hst]; simp only; split
        · rfl
        · exact hc.zero
    have hpend : (⟨st', s.proc⟩ : Sys).pend = s.pend := pend_congr hna (fun _ => rfl)
    have hitems : (⟨st', s.proc⟩ : Sys).items = s.items := items_congr hna (fun _ => rfl)
    have hev : Evo s ⟨st', s.proc⟩ t t [] := by
      refine ⟨fun _ => by rw [← hst]; exact Int.le_refl _, ?_, .refl _ _, by simp, Nat.le_of_eq hbn.symm, hnb.1⟩
      rintro n hg ⟨b, tl, h1, h2⟩
      exact ⟨b, tl, h1, h2⟩
    have hoff := hI.mem.off s.st.nalloc (Nat.le_refl _)
    have hfr : ∀ x, freeP (fun _ => false) s.st x = 0 → st'.mem x = s.st.mem x := by
      intro x h0
      apply hmem
      intro e
      have := hx x e.symm (fun _ => false)
      omega
    refine ⟨hI.locks.same (by rw [← hst]) (by rw [← hst]) (fun b => rfl), ?_, ?_⟩
    · refine hI.mem.quiet (a := s.st.nalloc) (by rw [hpend]; exact hcore) hna (Nat.le_of_eq hbn.symm)
        hfr (fun p _ x => Nat.le_of_eq (hfree p x)) (by rw [← hst]; exact Nat.le_refl _) (fun _ _ => rfl) (fun _ _ => by rw [← hst])
        (fun h => hoff) ?_ ?_ ?_ rfl (fun _ _ => rfl) (fun _ _ => rfl) (fun _ h => h) ?_
      · rw [hitems]; congr 1; rw [← hst]; exact total_congr rfl rfl rfl
      · intro h; rw [← hst]; exact hI.mem.idle _ h
      · show ∀ e c, s.proc s.st.nalloc = .arm e c → _
        rw [hoff]; intro e' c' h; cases h
      · show (s.proc s.st.nalloc).active = true → _
        rw [hoff]; intro h; cases h
    · intro b
      exact hev.proc (fun _ h => h) hI.mem.core hcore.repr (hI.mem.keeps b hfr) (by simp) (fun _ _ => rfl) (hI.proc b)
  · rw [if_neg hlt]; exact .inl rfl

/-! ## One step -/

omit hI in
/-- The failures that are possible although the caller respects the contract. -/
def Blame (s : Sys) : Act → Panic → Prop
  | .publish _ _, e => e = .noBlocks
  | .build _ _, e => e = .noBlocks
  | .block, e => e = .noBlocks
  | .tail a, e => e = .index ∧ ∃ tl n, (s.proc a).tail? = some tl ∧ tl.free = some (n, recyclerLen)
  | .abort a, e => e = .unlock ∧ ∃ cur, s.proc a = .del (.held cur) ∧ cur.op.kind = .replaceNodeWithNode ∧ cur.op.parent = 0
  | _, _ => False

omit hI in
/-- The step `act` is the publication of a delete. -/
def Sys.DelPub (s : Sys) (act : Act) : Prop :=
  (∃ a v cur, act = .publish a v ∧ s.proc a = .del (.held cur)) ∨ ∃ a cur cm, act = .commit a ∧ s.proc a = .delB cur cm

omit hI in
/-- The steps that publish a change. -/
def Act.publishes : Act → Bool
  | .publish _ _ => true
  | .commit _ => true
  | _ => false

theorem exec_inv {act : Act} {r} (hall : env.Allowed s act) (hcalm : Calm s act) (h : exec env.fetch s act = some r) :
    (∃ s' ev t' seen', r = .ok (s', ev) ∧ Inv env s' (σ.next ev) t' seen' ∧ ((∀ b x, (∀ c, ev ≠ .begun b c) → seen b x → seen' b x) ∧
      ∀ b x, seen' b x → seen b x ∨ x = t') ∧
      (¬ s.DelPub act → t.Dense → t'.Dense) ∧ KeepBig t t' ∧ (s.DelPub act → KeepBig t' t) ∧ (act.publishes = false → t' = t)) ∨ ∃ e, r = .error e ∧ Blame s act e := by
  cases act with
  | begin a c =>
    simp only [exec] at h
    split at h
    · rename_i hp
      split at h
      · rename_i ha
        injection h with h; subst h
        exact .inl ⟨_, _, _, _, rfl, begin_inv hI hp ha hall hcalm, ⟨fun _ _ _ h => h, fun _ _ h => .inl h⟩, fun _ h => h, .refl _, fun _ => .refl _, fun _ => rfl⟩
      · cases h
    · cases h
  | arm a =>
    simp only [exec] at h
    split at h
    · rename_i e c hp
      injection h with h; subst h
      exact .inl ⟨_, _, _, _, rfl, arm_inv hI hp, ⟨fun b x hb h => by
        rw [upd_of_ne _ _ (fun e => hb c (by rw [e]))]; exact h, fun b x h => by
        by_cases hb : b = a
        · subst hb; rw [upd_same] at h; exact .inr h
        · rw [upd_of_ne _ _ hb] at h; exact .inl h⟩, fun _ h => h, .refl _, fun _ => .refl _, fun _ => rfl⟩
    · cases h
  | run a =>
    simp only [exec] at h
    split at h
    · cases h
    · cases h
    · rename_i ph h1 h2 hp
      obtain ⟨ph', st', e, hI'⟩ := stepU_inv hI hp hcalm (fun f op e => h1 f op (by rw [e])) (fun f op e => h2 f op (by rw [e]))
      rw [e] at h
      injection h with h; subst h
      exact .inl ⟨_, _, _, _, rfl, hI', ⟨fun _ _ _ h => h, fun _ _ h => .inl h⟩, fun _ h => h, .refl _, fun _ => .refl _, fun _ => rfl⟩
    · cases h
    · cases h
    · cases h
    · rename_i ph h1 h2 h3 hp
      obtain ⟨ph', st', e, hI'⟩ := stepD_inv hI hp hcalm (fun f e => h2 f (by rw [e])) (fun f op e => h3 f op (by rw [e]))
        (fun f e => h1 f (by rw [e]))
      rw [e] at h
      injection h with h; subst h
      exact .inl ⟨_, _, _, _, rfl, hI', ⟨fun _ _ _ h => h, fun _ _ h => .inl h⟩, fun _ h => h, .refl _, fun _ => .refl _, fun _ => rfl⟩
    · cases h
    · rename_i ph h1 hp
      obtain ⟨ph', e, hI'⟩ := stepR_inv hI hp (fun f op e => h1 f op (by rw [e]))
      rw [e] at h
      injection h with h; subst h
      exact .inl ⟨_, _, _, _, rfl, hI', ⟨fun _ _ _ h => h, fun _ _ h => .inl h⟩, fun _ h => h, .refl _, fun _ => .refl _, fun _ => rfl⟩
    · cases h
  | slip a =>
    simp only [exec] at h
    split at h
    · split at h
      · rename_i ph hp
        cases hs : slipU s.st ph with
        | none => rw [hs] at h; cases h
        | some r =>
          obtain ⟨ph', rfl, hI'⟩ := slipU_inv hI hp hs
          rw [hs] at h
          cases h
          exact .inl ⟨_, _, _, _, rfl, hI', ⟨fun _ _ _ h => h, fun _ _ h => .inl h⟩, fun _ h => h, .refl _, fun _ => .refl _, fun _ => rfl⟩
      · rename_i ph hp
        cases hs : slipD s.st ph with
        | none => rw [hs] at h; cases h
        | some r =>
          obtain ⟨ph', rfl, hI'⟩ := slipD_inv hI hp hs
          rw [hs] at h
          cases h
          exact .inl ⟨_, _, _, _, rfl, hI', ⟨fun _ _ _ h => h, fun _ _ h => .inl h⟩, fun _ h => h, .refl _, fun _ => .refl _, fun _ => rfl⟩
      · cases h
    · cases h
  | publish a value =>
    simp only [exec] at h
    split at h
    · rename_i f op hp
      injection h with h; subst h
      rcases publishU_inv hI hp hall with e | ⟨b, tl, st', e, _, t', seen', hs', hI', hdn⟩
      · rw [e]; exact .inr ⟨_, rfl, rfl⟩
      · rw [e]; exact .inl ⟨_, _, _, _, rfl, hI', ⟨fun b x _ h => (hs'.1 b x).2 (.inl h), fun b x h => (hs'.1 b x).1 h⟩, fun _ => hdn.1, hdn.2,
          (by rintro (⟨_, _, _, h1, h2⟩ | ⟨_, _, _, h1, _⟩) <;> cases h1; rw [hp] at h2; cases h2), (fun h => by cases h)⟩
    · rename_i cur hp
      injection h with h; subst h
      rcases publishD_inv hI hp hall hcalm with e | ⟨b, tl, st', e, _, _, t', seen', hs', hI', hkb⟩
      · rw [e]; exact .inr ⟨_, rfl, rfl⟩
      · rw [e]; exact .inl ⟨_, _, _, _, rfl, hI', ⟨fun b x _ h => (hs'.1 b x).2 (.inl h), fun b x h => (hs'.1 b x).1 h⟩,
          fun h => absurd (.inl ⟨a, value, cur, rfl, hp⟩) h, hkb.1, fun _ => hkb.2, (fun h => by cases h)⟩
    · cases h
  | build a value =>
    simp only [exec] at h
    split at h
    · rename_i f op hp
      injection h with h; subst h
      rcases buildU_inv hI hp hall with e | ⟨cm, st', e, _, hI'⟩
      · rw [e]; exact .inr ⟨_, rfl, rfl⟩
      · rw [e]; exact .inl ⟨_, _, _, _, rfl, hI', ⟨fun _ _ _ h => h, fun _ _ h => .inl h⟩, fun _ h => h, .refl _, fun _ => .refl _, fun _ => rfl⟩
    · rename_i cur hp
      split at h
      · cases h
      injection h with h; subst h
      rcases buildD_inv hI hp (value := value) hall with e | ⟨cm, st', e, _, hI'⟩
      · rw [e]; exact .inr ⟨_, rfl, rfl⟩
      · rw [e]; exact .inl ⟨_, _, _, _, rfl, hI', ⟨fun _ _ _ h => h, fun _ _ h => .inl h⟩, fun _ h => h, .refl _, fun _ => .refl _, fun _ => rfl⟩
    · cases h
  | commit a =>
    simp only [exec] at h
    split at h
    · rename_i op value cm hp
      injection h with h; subst h
      obtain ⟨b, tl, st', e, _, t', seen', hs', hI', hdn⟩ := commitU_inv hI hp
      rw [e]; exact .inl ⟨_, _, _, _, rfl, hI', ⟨fun b x _ h => (hs'.1 b x).2 (.inl h), fun b x h => (hs'.1 b x).1 h⟩, fun _ => hdn.1, hdn.2,
        (by rintro (⟨_, _, _, h1, _⟩ | ⟨_, _, _, h1, h2⟩) <;> cases h1; rw [hp] at h2; cases h2), (fun h => by cases h)⟩
    · rename_i cur cm hp
      injection h with h; subst h
      obtain ⟨b, tl, st', e, _, _, t', seen', hs', hI', hkb⟩ := commitD_inv hI hp hcalm
      rw [e]; exact .inl ⟨_, _, _, _, rfl, hI', ⟨fun b x _ h => (hs'.1 b x).2 (.inl h), fun b x h => (hs'.1 b x).1 h⟩,
        fun h => absurd (.inr ⟨a, cur, cm, rfl, hp⟩) h, hkb.1, fun _ => hkb.2, (fun h => by cases h)⟩
    · cases h
  | unlock a =>
    simp only [exec] at h
    split at h
    · rename_i b tl hp
      cases hs : s.st.unlockOne tl.unl with
      | none => rw [hs] at h; cases h
      | some r =>
        have hP := hI.proc a
        rw [hp] at hP
        obtain ⟨u, st', rfl, hI'⟩ := unlock_inv hI (a := a) (tl := tl) (by rw [hp]; rfl) (by rw [hp]; rfl) hP.2 hs
          (P := fun u => .upd (.tail b { tl with unl := u })) (fun _ => rfl) (fun _ => rfl) (fun _ => rfl) (fun u h => ⟨hP.1, h⟩)
        rw [hs] at h
        cases h
        exact .inl ⟨_, _, _, _, rfl, hI', ⟨fun _ _ _ h => h, fun _ _ h => .inl h⟩, fun _ h => h, .refl _, fun _ => .refl _, fun _ => rfl⟩
    · rename_i b tl hp
      cases hs : s.st.unlockOne tl.unl with
      | none => rw [hs] at h; cases h
      | some r =>
        have hP := hI.proc a
        rw [hp] at hP
        obtain ⟨u, st', rfl, hI'⟩ := unlock_inv hI (a := a) (tl := tl) (by rw [hp]; rfl) (by rw [hp]; rfl) hP.2 hs
          (P := fun u => .del (.tail b { tl with unl := u })) (fun _ => rfl) (fun _ => rfl) (fun _ => rfl) (fun u h => ⟨hP.1, h⟩)
        rw [hs] at h
        cases h
        exact .inl ⟨_, _, _, _, rfl, hI', ⟨fun _ _ _ h => h, fun _ _ h => .inl h⟩, fun _ h => h, .refl _, fun _ => .refl _, fun _ => rfl⟩
    · cases h
  | tail a =>
    simp only [exec] at h
    split at h
    · rename_i b tl hp
      injection h with h; subst h
      have hP := hI.proc a
      rw [hp] at hP
      have ht : (s.proc a).tail? = some tl := by rw [hp]; rfl
      rcases tail_inv hI ht (by rw [hp]; rfl) hP with ⟨n, hn, e⟩ | ⟨st', e, hI'⟩
      · rw [e]; exact .inr ⟨_, rfl, rfl, tl, n, ht, hn⟩
      · rw [e]; exact .inl ⟨_, _, _, _, rfl, hI', ⟨fun _ _ _ h => h, fun _ _ h => .inl h⟩, fun _ h => h, .refl _, fun _ => .refl _, fun _ => rfl⟩
    · rename_i b tl hp
      injection h with h; subst h
      have hP := hI.proc a
      rw [hp] at hP
      have ht : (s.proc a).tail? = some tl := by rw [hp]; rfl
      rcases tail_inv hI ht (by rw [hp]; rfl) hP with ⟨n, hn, e⟩ | ⟨st', e, hI'⟩
      · rw [e]; exact .inr ⟨_, rfl, rfl, tl, n, ht, hn⟩
      · rw [e]; exact .inl ⟨_, _, _, _, rfl, hI', ⟨fun _ _ _ h => h, fun _ _ h => .inl h⟩, fun _ h => h, .refl _, fun _ => .refl _, fun _ => rfl⟩
    · cases h
  | quit a =>
    simp only [exec] at h
    split at h
    · rename_i f op hp
      injection h with h; subst h
      exact .inl ⟨_, _, _, _, rfl, quitU_inv hI hp, ⟨fun _ _ _ h => h, fun _ _ h => .inl h⟩, fun _ h => h, .refl _, fun _ => .refl _, fun _ => rfl⟩
    · rename_i cur hp
      injection h with h; subst h
      exact .inl ⟨_, _, _, _, rfl, quitD_inv hI hp hcalm, ⟨fun _ _ _ h => h, fun _ _ h => .inl h⟩, fun _ h => h, .refl _, fun _ => .refl _, fun _ => rfl⟩
    · cases h
  | abort a =>
    simp only [exec] at h
    split at h
    · rename_i f op hp
      injection h with h; subst h
      obtain ⟨st', e, _, hI'⟩ := abortU_inv hI hp
      rw [e]; exact .inl ⟨_, _, _, _, rfl, hI', ⟨fun _ _ _ h => h, fun _ _ h => .inl h⟩, fun _ h => h, .refl _, fun _ => .refl _, fun _ => rfl⟩
    · rename_i cur hp
      injection h with h; subst h
      rcases abortD_inv hI hp hcalm with ⟨e, h1, h2⟩ | ⟨st', e, _, hI'⟩
      · rw [e]; exact .inr ⟨_, rfl, rfl, cur, hp, h1, h2⟩
      · rw [e]; exact .inl ⟨_, _, _, _, rfl, hI', ⟨fun _ _ _ h => h, fun _ _ h => .inl h⟩, fun _ h => h, .refl _, fun _ => .refl _, fun _ => rfl⟩
    · cases h
  | finish a =>
    simp only [exec] at h
    split at h
    · rename_i key hp
      injection h with h; subst h
      refine .inl ⟨_, _, t, seen, rfl, (hI.quit (by rw [hp]; rfl) (by rw [hp]; rfl) ?_).2, ⟨fun _ _ _ h => h, fun _ _ h => .inl h⟩, fun _ h => h, .refl _, fun _ => .refl _, fun _ => rfl⟩
      rw [hp]; simp [Proc.unl, Unlock.list, Unlock.rootN, bumpLocks_nil]
    · rename_i key res hp
      injection h with h; subst h
      refine .inl ⟨_, _, t, seen, rfl, (hI.quit (by rw [hp]; rfl) (by rw [hp]; rfl) ?_).2, ⟨fun _ _ _ h => h, fun _ _ h => .inl h⟩, fun _ h => h, .refl _, fun _ => .refl _, fun _ => rfl⟩
      rw [hp]; simp [Proc.unl, Unlock.list, Unlock.rootN, bumpLocks_nil]
    · rename_i hp
      injection h with h; subst h
      refine .inl ⟨_, _, t, seen, rfl, (hI.quit (by rw [hp]; rfl) (by rw [hp]; rfl) ?_).2, ⟨fun _ _ _ h => h, fun _ _ h => .inl h⟩, fun _ h => h, .refl _, fun _ => .refl _, fun _ => rfl⟩
      rw [hp]; simp [Proc.unl, Unlock.list, Unlock.rootN, bumpLocks_nil]
    · cases h
  | flush a =>
    simp only [exec] at h
    split at h
    · rename_i hp
      split at h
      · rename_i ha
        injection h with h; subst h
        exact .inl ⟨_, _, _, _, rfl, flush_inv hI hp ha, ⟨fun _ _ _ h => h, fun _ _ h => .inl h⟩, fun _ h => h, .refl _, fun _ => .refl _, fun _ => rfl⟩
      · cases h
    · cases h
  | block =>
    simp only [exec] at h
    injection h with h; subst h
    rcases block_inv hI with e | ⟨st', e, hI'⟩
    · rw [e]; exact .inr ⟨_, rfl, rfl⟩
    · rw [e]; exact .inl ⟨_, _, _, _, rfl, hI', ⟨fun _ _ _ h => h, fun _ _ h => .inl h⟩, fun _ h => h, .refl _, fun _ => .refl _, fun _ => rfl⟩

end

/-! ## Executions -/

theorem sum_zero_nat {α} {f : α → Nat} : ∀ {l : List α}, (∀ x ∈ l, f x = 0) → (l.map f).sum = 0 := by
  intro l
  induction l with
  | nil => intro _; rfl
  | cons b l ih =>
    intro h
    simp only [List.map_cons, List.sum_cons]
    rw [h b (by simp), ih (fun x hx => h x (by simp [hx]))]

theorem sum_zero_int {α} {f : α → Int} : ∀ {l : List α}, (∀ x ∈ l, f x = 0) → (l.map f).sum = 0 := by
  intro l
  induction l with
  | nil => intro _; rfl
  | cons b l ih =>
    intro h
    simp only [List.map_cons, List.sum_cons]
    rw [h b (by simp), ih (fun x hx => h x (by simp [hx]))]; rfl

theorem allocOK_new (n : Nat) : AllocOK n {} :=
  ⟨rfl, .inl ⟨rfl, rfl, rfl⟩, fun t it _ h => by simp at h⟩

theorem allocCover_new (p : Nat → Bool) (x : Nat) : allocCover p {} x = 0 := by
  have h1 : bumpCover {} x = 0 := by
    unfold bumpCover
    rw [if_neg]
    rintro ⟨h1, h2⟩
    rw [show ({} : Alloc).offset = 0 from rfl, show ({} : Alloc).nextFree = blockSize from rfl, blockSize_eq] at h1
    rw [show ({} : Alloc).offset = 0 from rfl, blockSlots_eq] at h2
    omega
  unfold allocCover recCover
  rw [h1, sum_zero_nat]
  intro t _; rfl

theorem freeCover_new (n x : Nat) : freeCover (St.new n) x = 1 := by
  unfold freeCover freeP
  rw [sum_zero_nat]
  · simp [St.new]
  · intro a _; exact allocCover_new _ x

theorem new_inv (env : Env) (n : Nat) : Inv env (Sys.new n) .init .empty (fun _ _ => False) := by
  have hp : ∀ a, (Sys.new n).proc a = .idle := fun _ => rfl
  have hpend : (Sys.new n).pend = fun _ => 0 := by
    funext x
    unfold Sys.pend
    exact sum_zero_nat (fun _ _ => rfl)
  have hitems : (Sys.new n).items = 0 := by
    unfold Sys.items
    exact sum_zero_int (fun _ _ => rfl)
  refine ⟨⟨?_, ?_, .inl ⟨rfl, fun a => by rw [hp]; simp [Proc.unl]⟩, ?_⟩, ?_, ?_⟩
  · intro a m hm; rw [hp] at hm; simp [Proc.unl, Unlock.list] at hm
  · intro a b _ m hm; rw [hp] at hm; simp [Proc.unl, Unlock.list] at hm
  · intro m hm; exact absurd hm (by show ¬ ((0 : Int) % 2 = 1); decide)
  · refine ⟨⟨rfl, trivial, trivial, trivial, by show (St.new n).nblocks ≤ _; simp [St.nblocks, St.new], ?_, ?_, rfl, by rw [hpend]⟩,
      fun a _ => rfl, ?_, fun a _ => rfl, ?_, ?_, ?_, ?_, ?_, ?_, ?_, ?_, ?_⟩
    · intro x; rw [hpend]
      show 0 + 0 + freeCover (St.new n) x ≤ 1
      rw [freeCover_new]; omega
    · intro b _; exact allocOK_new _
    · intro k v
      constructor
      · intro h; exact absurd h (by simp [T.Has])
      · intro h; cases h
    · intro a e c h; cases h
    · intro a h; cases h
    · intro a h; cases h
    · intro a _ h; cases h
    · intro a _ h; cases h
    · intro a _ _ _ _ _ _ h; cases h
    · intro a _ _ _ _ _ _ _ _ _ _ _ h; cases h
    · refine ⟨[], List.nodup_nil, ?_, ?_⟩
      · intro k; simp [T.Has]
      · rw [hitems]
        show (0 : Int) + _ + 0 = 0
        rw [sum_zero_int (f := fun a => ((Sys.new n).st.allocs a).itemCounter) (fun _ _ => rfl)]; rfl
    · intro a b _ h; cases h
  · intro a; rw [hp]; trivial

/-! ## Saving and loading -/

theorem restore_recCover (al : Alloc) (x : Nat) : recCover (fun _ => true) al.restore.recycler x = recCover (fun _ => true) al.recycler x := by
  unfold recCover
  congr 1
  apply List.map_congr_left
  intro t ht
  have ht' : t < recyclerLen := List.mem_range.1 ht
  unfold listCover Alloc.restore
  simp only [if_pos ht', List.map_map]
  congr 1

theorem nextFreeBlock_of {st : St} (hr : st.baReady = true ∨ st.baSent = false) : st.nextFreeBlock = st.baNext := by
  unfold St.nextFreeBlock
  rcases hr with h | h <;> simp [h]

theorem restore_freeCover {st : St} (hr : st.baReady = true ∨ st.baSent = false) (x : Nat) : freeCover st.restore x = freeCover st x := by
  have hn : st.restore.baNext = st.baNext := nextFreeBlock_of hr
  have hc : ∀ a, a ∈ List.range st.nalloc → allocCover (fun _ => true) (st.restore.allocs a) x = allocCover (fun _ => true) (st.allocs a) x := by
    intro a ha
    have ha' : a < st.nalloc := List.mem_range.1 ha
    have e : st.restore.allocs a = (st.allocs a).restore := by simp [St.restore, ha']
    unfold allocCover
    rw [e, restore_recCover]
    rfl
  have hm := List.map_congr_left hc
  have hna : st.restore.nalloc = st.nalloc := rfl
  unfold freeCover freeP
  rw [hn, hna, hm]

theorem restore_allocOK {n : Nat} {al : Alloc} (h : AllocOK n al) : AllocOK n al.restore := by
  refine ⟨h.mod8, h.bump, ?_⟩
  intro t it ht hit
  simp only [Alloc.restore, if_pos ht] at hit
  obtain ⟨it', h1, h2⟩ := List.mem_map.1 hit
  subst h2
  exact h.items t it' ht h1

/-- The invariant holds for the tree loaded from the data saved. -/
theorem restore_inv {env : Env} {s : Sys} {σ : Spec} {t : T} {seen : Nat → T → Prop} (hI : Inv env s σ t seen) (hs : s.Savable) :
    Inv env ⟨s.st.restore, fun _ => .idle⟩ σ t (fun _ _ => False) := by
  have hn : s.st.restore.baNext = s.st.baNext := nextFreeBlock_of hs.ready
  have hpend0 : s.pend = fun _ => 0 := by
    funext x
    unfold Sys.pend
    exact sum_zero_nat (fun a _ => by rw [hs.idle a]; rfl)
  have hitems0 : s.items = 0 := by
    unfold Sys.items
    exact sum_zero_int (fun a _ => by rw [hs.idle a]; rfl)
  have hpend : (⟨s.st.restore, fun _ => .idle⟩ : Sys).pend = fun _ => 0 := by
    funext x
    unfold Sys.pend
    exact sum_zero_nat (fun _ _ => rfl)
  have hitems : (⟨s.st.restore, fun _ => .idle⟩ : Sys).items = 0 := by
    unfold Sys.items
    exact sum_zero_int (fun _ _ => rfl)
  have hcore := hI.mem.core
  rw [hpend0] at hcore
  have hmem : ∀ x, 0 < t.cover x → s.st.restore.mem x = s.st.mem x := by
    intro x hx
    have h1 := hcore.sep x
    have h2 : x < s.st.baNext * blockSlots := by
      apply Classical.byContradiction
      intro hc
      have h3 : 1 ≤ freeCover s.st x := by
        unfold freeCover freeP
        rw [if_pos (by omega)]
        omega
      omega
    have h3 : x / blockSlots < s.st.nextFreeBlock := by
      rw [nextFreeBlock_of hs.ready]
      exact Nat.div_lt_of_lt_mul (by rw [Nat.mul_comm]; exact h2)
    simp only [St.restore, if_pos h3]
  refine ⟨⟨?_, ?_, .inl ⟨rfl, fun a => by simp [Proc.unl]⟩, ?_⟩, ?_, ?_⟩
  · intro a m hm; simp [Proc.unl, Unlock.list] at hm
  · intro a b _ m hm; simp [Proc.unl, Unlock.list] at hm
  · intro m hm; exact absurd hm (by show ¬ ((0 : Int) % 2 = 1); decide)
  · refine ⟨⟨hcore.root, hcore.repr.congr hmem, hcore.wf, by rw [hn]; exact hcore.inb, ?_, ?_, ?_, ?_, by rw [hpend]⟩,
      fun a _ => rfl, hI.mem.content, fun a _ => rfl, ?_, ?_, ?_, ?_, ?_, ?_, ?_, ?_, ?_⟩
    · show s.st.restore.nblocks ≤ _
      have h1 : s.st.restore.nblocks = s.st.baNext := by
        rw [St.nblocks, if_neg (by simp [St.restore]), hn]
      rw [h1]
      exact hcore.bn
    · intro x
      rw [hpend]
      show t.cover x + 0 + freeCover s.st.restore x ≤ 1
      rw [restore_freeCover hs.ready]
      exact hcore.sep x
    · intro b hb
      show AllocOK s.st.restore.baNext (s.st.restore.allocs b)
      have hb' : b < s.st.nalloc := hb
      rw [hn, show s.st.restore.allocs b = (s.st.allocs b).restore by simp [St.restore, hb']]
      exact restore_allocOK (hcore.ok b hb')
    · show s.st.restore.mem 0 = 0
      simp only [St.restore]
      split
      · exact hcore.zero
      · rfl
    · intro a e c h; cases h
    · intro a h; cases h
    · intro a h; cases h
    · intro a _ h; cases h
    · intro a _ h; cases h
    · intro a _ _ _ _ _ _ h; cases h
    · intro a _ _ _ _ _ _ _ _ _ _ _ h; cases h
    · obtain ⟨l, h1, h2, h3⟩ := hI.mem.count
      refine ⟨l, h1, h2, ?_⟩
      rw [hitems, ← h3, hitems0]
      have e1 : s.st.total = s.st.live := by
        unfold St.total
        rw [sum_zero_int fun a ha => hs.flushed a (List.mem_range.1 ha)]
        omega
      have e2 : s.st.restore.total = s.st.live := by
        unfold St.total
        rw [sum_zero_int fun a ha => ?_]
        · show (if s.st.live < 0 then 0 else s.st.live) + 0 = s.st.live
          rw [e1, hitems0] at h3
          rw [if_neg (by omega)]
          omega
        · have ha' : a < s.st.nalloc := List.mem_range.1 ha
          simp [St.restore, ha', Alloc.restore]
      rw [e1]
      show s.st.restore.total + 0 = _
      rw [e2]
    · intro a b _ h; cases h
  · intro a; trivial

/-- The invariant holds in every reachable state. -/
theorem Run.inv {env : Env} {s : Sys} {σ : Spec} (h : Run env Calm s σ) : ∃ t seen, Inv env s σ t seen := by
  induction h with
  | init n => exact ⟨_, _, new_inv env n⟩
  | reload _ hs ih =>
    obtain ⟨t, seen, hI⟩ := ih
    exact ⟨t, _, restore_inv hI hs⟩
  | step _ h1 h2 h3 ih =>
    obtain ⟨t, seen, hI⟩ := ih
    rcases exec_inv hI h1 h2 h3 with ⟨s', ev, t', seen', e, hI', _⟩ | ⟨e, he, _⟩
    · injection e with e; injection e with e1 e2; subst e1 e2
      exact ⟨t', seen', hI'⟩
    · cases he

end Radix
