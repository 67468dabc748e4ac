import Verif.Properties.Coarse
import Verif.Properties.Two
import Verif.Properties.AbortWrong
import Verif.Properties.Progress
/-!
# C44 does not hold in full: two updates can retry for ever

`lockNodes2` takes the lock of the node before the lock of its parent, and gives back the first if it does not get the second.  A lock word belongs to
every 4096th slot of a block.  If the node of one update shares its lock word with the parent of another one and the other way round, the two can
keep each other from succeeding, again and again, and no operation is ever prepared.
-/
set_option autoImplicit false
namespace Radix

/-! ## Single accesses, two updates -/

/-- With at most two updates, or one delete, at a time: what uninterrupted steps lead to, single accesses lead to (see C61). -/
theorem C61_two_updates {env : Env} {s : Sys} {σ : Spec} (h : Run env (fun s act => TwoUpdates s act ∧ NoSlip s act) s σ) :
    FRun env FTwoUpdates ⟨s, fun _ => .none⟩ σ := by
  have h1 : Run env (fun s act => Calm s act ∧ TwoUpdates s act ∧ NoSlip s act) s σ := by
    induction h with
    | init n => exact .init n
    | reload _ hs ih => exact .reload ih hs
    | step h0 hal hG he ih =>
      obtain ⟨_, t, seen, hI, hM⟩ := (h0.mono fun _ _ h => h.1).twoUpdates
      exact .step ih hal ⟨hM.calm hI hG.1, hG⟩ he
  have hc := fits_calm (env := env) (G := fun s act => CalmNodes s act ∧ Calm s act ∧ TwoUpdates s act ∧ NoSlip s act) fun _ _ h => h.1
  exact (h1.calmNodes fun _ _ h => h.1).fine (H := FTwoUpdates)
    ⟨fun h => h.2.2.1, fun _ _ _ => trivial, fun _ _ _ => trivial, fun _ => trivial, fun _ _ => trivial, fun h1 h2 => hc.void h1 h2,
      fun h1 h2 => hc.quit h1 h2, trivial, trivial⟩ fun _ a _ h => absurd rfl (h.2.2.2 a)

/-! ## The statement -/

/-- `acts` lead from `f` to `f'`, respecting the contract and the restriction `G`, and in all states on the way `Q` holds (every access is a step). -/
inductive FPath (env : Env) (G : FSys → FAct → Prop) (Q : FSys → Prop) : FSys → List FAct → FSys → Prop
  | nil {f : FSys} : Q f → FPath env G Q f [] f
  | cons {f f1 f' : FSys} {act : FAct} {acts : List FAct} {ev : Ev} : Q f → env.Allowed f.sys act.act → G f act →
      fexec env.fetch f act = some (.ok (f1, ev)) → FPath env G Q f1 acts f' → FPath env G Q f (act :: acts) f'

/-- No operation is prepared. -/
def FSys.Unprepared (f : FSys) : Prop := ∀ b, (f.sys.proc b).prepared = false

/-- The statement of C44 about updates that retry, for at most two updates at a time: while no operation is prepared, a `PrepareUpdate` under way takes
a bounded number of steps. -/
def C44_statement : Prop :=
  ∀ (env : Env) (f : FSys) (σ : Spec), FRun env FTwoUpdates f σ → ∀ (a : Nat) (key : Key), σ.call a = .update key →
    ∃ bound, ∀ acts f', FPath env FTwoUpdates FSys.Unprepared f acts f' → acts.count (.step a) ≤ bound

/-! ## Paths -/

section
variable {env : Env} {G : FSys → FAct → Prop} {Q : FSys → Prop} {f f1 f2 : FSys} {a : Nat}

theorem FPath.head {acts : List FAct} (h : FPath env G Q f acts f1) : Q f := by
  cases h <;> assumption

theorem FPath.append {l1 l2 : List FAct} (h1 : FPath env G Q f l1 f1) (h2 : FPath env G Q f1 l2 f2) : FPath env G Q f (l1 ++ l2) f2 := by
  induction h1 with
  | nil _ => exact h2
  | cons q h3 h4 h5 _ ih => exact .cons q h3 h4 h5 (ih h2)

theorem FPath.one (q : FSys.Unprepared f) (q' : FSys.Unprepared f1) (he : fstep env.fetch f a = some (.ok f1)) :
    FPath env FTwoUpdates FSys.Unprepared f [.step a] f1 :=
  .cons (ev := .none) q trivial trivial (by simp only [fexec, he]; rfl) (.nil q')

theorem FSys.Unprepared.set (q : f.Unprepared) {st : St} {p : Proc} {ph : FPh} (hp : p.prepared = false) : (f.set a st p ph).Unprepared := by
  intro b
  simp only [FSys.set, Sys.set]
  by_cases h : b = a
  · subst h; rw [upd_same]; exact hp
  · rw [upd_of_ne _ _ h]; exact q b

theorem FSys.set_set {st st' : St} {p p' : Proc} {ph ph' : FPh} : (f.set a st p ph).set a st' p' ph' = f.set a st' p' ph' := by
  simp only [FSys.set, Sys.set, upd_upd]

/-! ## Reading, alone -/

/-- The next access of an update that reads: phases and the loads still to be made. -/
def soloU (st : St) : UPh × FPh → Option (UPh × FPh)
  | (.start key, .none) => if st.root = 0 ∨ isLeaf st.root then none else some (.gen { key := key, nodePtr := .root, raw := st.root }, .none)
  | (.gen op, .none) => if lockBlock (nodeAddr op.raw) < st.nblocks then
      some (.ptr { op with node := nodeAddr op.raw, count := nodeCount op.raw, nodeGen := st.gen (nodeAddr op.raw) }, .none) else none
  | (.ptr op, .none) => if st.load op.nodePtr ≠ op.raw then none else some (.par op, .none)
  | (.par op, .none) => if op.parent = 0 then some (.body op, .none)
      else if lockBlock op.parent < st.nblocks ∧ op.parentGen = st.gen op.parent then some (.body op, .none) else none
  | (.body op, .none) => soloP st (.body op) (bodyUP op)
  | (.body op, .readU P) => soloP st (.body op) P
  | _ => none
where soloP (st : St) (ph : UPh) (P : Prog UPh) : Option (UPh × FPh) :=
  match P.next st with
  | .ret (.ok ph') => if (Proc.upd ph').prepared then none else some (ph', .none)
  | .ret (.error _) => none
  | P' => some (ph, .readU P')

theorem soloP_step {st : St} {ph ph' : UPh} {x' : FPh} {P : Prog UPh} (hst : f.sys.st = st) (hp : f.sys.proc a = .upd ph) (hr : (Proc.upd ph).prepared = false)
    (h : soloU.soloP st ph P = some (ph', x')) : f.readU a P = .ok (f.set a st (.upd ph') x') ∧ (Proc.upd ph').prepared = false := by
  subst hst
  unfold soloU.soloP at h
  unfold FSys.readU
  split at h
  · rename_i p hn
    split at h
    · cases h
    · rename_i hq
      cases h
      rw [hn]
      exact ⟨rfl, by simpa using hq⟩
  · cases h
  · rename_i P' h1 h2
    cases h
    generalize P.next f.sys.st = R at h1 h2
    cases R with
    | ret r =>
      cases r with
      | ok p => exact absurd rfl (h1 p)
      | error e => exact absurd rfl (h2 e)
    | _ => rw [hp]; exact ⟨rfl, hr⟩

theorem soloU_step {st : St} {fetch : Word → Key} {ph ph' : UPh} {x x' : FPh} (hst : f.sys.st = st) (hp : f.sys.proc a = .upd ph) (hx : f.fine a = x)
    (h : soloU st (ph, x) = some (ph', x')) : fstep fetch f a = some (.ok (f.set a st (.upd ph') x')) ∧ (Proc.upd ph').prepared = false := by
  have self : f.fine a = .none → upd f.fine a .none = f.fine := fun h => by
    funext b
    by_cases hb : b = a
    · subst hb; rw [upd_same, h]
    · rw [upd_of_ne _ _ hb]
  unfold soloU at h
  split at h
  · rename_i key he
    injection he with e1 e2
    subst e1; subst e2; subst hst
    split at h
    · cases h
    · rename_i hn
      cases h
      refine ⟨?_, rfl⟩
      simp only [fstep, hx, hp, exec, stepU, if_neg hn, FSys.set, self hx]
      rfl
  · rename_i op he
    injection he with e1 e2
    subst e1; subst e2; subst hst
    split at h
    · rename_i hn
      cases h
      refine ⟨?_, rfl⟩
      simp only [fstep, hx, hp, exec, stepU, St.generation, if_pos hn, FSys.set, self hx]
      rfl
    · cases h
  · rename_i op he
    injection he with e1 e2
    subst e1; subst e2; subst hst
    split at h
    · cases h
    · rename_i hn
      cases h
      refine ⟨?_, rfl⟩
      simp only [fstep, hx, hp, exec, stepU, if_neg hn, FSys.set, self hx]
      rfl
  · rename_i op he
    injection he with e1 e2
    subst e1; subst e2; subst hst
    split at h
    · rename_i hn
      cases h
      refine ⟨?_, rfl⟩
      simp only [fstep, hx, hp, exec, stepU, if_pos hn, FSys.set, self hx]
      rfl
    · rename_i hn
      split at h
      · rename_i hg
        cases h
        refine ⟨?_, rfl⟩
        simp only [fstep, hx, hp, exec, stepU, if_neg hn, St.generation, if_pos hg.1, FSys.set, self hx, bind, Except.bind, hg.2, ne_eq, not_true_eq_false,
          if_false]
        rfl
      · cases h
  · rename_i op he
    injection he with e1 e2
    subst e1; subst e2
    obtain ⟨h1, h2⟩ := soloP_step hst hp rfl h
    refine ⟨?_, h2⟩
    simp only [fstep, hx, hp, h1]
  · rename_i op P he
    injection he with e1 e2
    subst e1; subst e2
    obtain ⟨h1, h2⟩ := soloP_step hst hp rfl h
    refine ⟨?_, h2⟩
    simp only [fstep, hx, hp, h1]
  · cases h

/-- `m` accesses. -/
def soloN (st : St) : Nat → UPh × FPh → Option (UPh × FPh)
  | 0, y => some y
  | m + 1, y => (soloU st y).bind (soloN st m)

theorem soloN_path {st : St} : ∀ (m : Nat) {f : FSys} {ph ph' : UPh} {x x' : FPh}, f.Unprepared → f.sys.st = st → f.sys.proc a = .upd ph → f.fine a = x →
    soloN st (m + 1) (ph, x) = some (ph', x') →
    FPath env FTwoUpdates FSys.Unprepared f (List.replicate (m + 1) (.step a)) (f.set a st (.upd ph') x') ∧ (f.set a st (.upd ph') x').Unprepared
  | m, f, ph, ph', x, x', q, hst, hp, hx, h => by
    simp only [soloN] at h
    cases h1 : soloU st (ph, x) with
    | none => rw [h1] at h; cases h
    | some y =>
      rw [h1] at h
      obtain ⟨h2, h3⟩ := soloU_step (fetch := env.fetch) hst hp hx h1
      have q1 : (f.set a st (.upd y.1) y.2).Unprepared := q.set h3
      cases m with
      | zero =>
        cases h
        exact ⟨.one q q1 h2, q1⟩
      | succ m =>
        obtain ⟨h4, h5⟩ := soloN_path m (f := f.set a st (.upd y.1) y.2) q1 rfl (upd_same ..) (upd_same ..) h
        rw [FSys.set_set] at h4 h5
        exact ⟨(FPath.one q q1 h2).append h4, h5⟩

/-! ## One round -/

theorem two_plan {op : UpdOp} (hpar : op.parent ≠ 0) (hn : op.nodeGen % 2 = 0) (hg : op.parentGen % 2 = 0) (hd : lockDiffer op.parent op.node = true) :
    lockPlan op.req = some [(op.node, op.nodeGen), (op.parent, op.parentGen)] := by
  simp only [UpdOp.req, lockPlan, lockPlan2, if_neg hpar, hn, hg, hd]
  simp

theorem cas_first {fetch : Word → Key} {b : Bool} {op : UpdOp} {p : Proc} (hp : f.sys.proc a = p) (e : p = .upd (.lock b op)) (hx : f.fine a = .none)
    (l : lockPlan op.req = some [(op.node, op.nodeGen), (op.parent, op.parentGen)]) (g : f.sys.st.gen op.node = op.nodeGen) :
    fstep fetch f a = some (.ok (f.set a (f.sys.st.setGen op.node (op.nodeGen + 1)) p (.take [(op.parent, op.parentGen)] [(op.node, op.nodeGen)]))) := by
  subst e
  simp only [fstep, hx, hp, FSys.casFirst, l, FSys.cas, if_pos g]
  rfl

theorem cas_second {fetch : Word → Key} {b : Bool} {op : UpdOp} {x : Nat × Int} (hp : f.sys.proc a = .upd (.lock b op))
    (hx : f.fine a = .take [(op.parent, op.parentGen)] [x]) (g : f.sys.st.gen op.parent ≠ op.parentGen) :
    fstep fetch f a = some (.ok (f.set a f.sys.st (.upd (.start op.key)) (.back [x]))) := by
  simp only [fstep, hx, hp, FSys.cas, if_neg g]
  rfl

theorem give_back {fetch : Word → Key} {p : Proc} {n : Nat} {g : Int} (hp : f.sys.proc a = p) (hx : f.fine a = .back [(n, g)]) :
    fstep fetch f a = some (.ok (f.set a (f.sys.st.setGen n (f.sys.st.gen n - 1)) p .none)) := by
  simp only [fstep, hx, hp]
  rfl

theorem locks_given_back (st : St) {n n' : Nat} {g g' : Int} (hg : st.gen n = g) (hg' : st.gen n' = g') :
    (((st.setGen n (g + 1)).setGen n' (g' + 1)).setGen n g).setGen n' g' = st := by
  subst hg; subst hg'
  unfold St.setGen St.gen
  cases st
  congr 1
  funext b i
  dsimp only
  repeat' split
  all_goals first | rfl | simp_all

/-- `f` with another tree and other places of the allocators 0 and 1. -/
def FSys.pair (f : FSys) (st : St) (p0 : Proc) (x0 : FPh) (p1 : Proc) (x1 : FPh) : FSys := (f.set 0 st p0 x0).set 1 st p1 x1

theorem FSys.pair_set0 {st st' : St} {p0 p1 p : Proc} {x0 x1 x : FPh} : (f.pair st p0 x0 p1 x1).set 0 st' p x = f.pair st' p x p1 x1 := by
  simp only [FSys.pair, FSys.set, Sys.set]
  congr 1
  · congr 1
    funext b; simp only [upd]; repeat' split
    all_goals first | rfl | omega
  · funext b; simp only [upd]; repeat' split
    all_goals first | rfl | omega

theorem FSys.pair_set1 {st st' : St} {p0 p1 p : Proc} {x0 x1 x : FPh} : (f.pair st p0 x0 p1 x1).set 1 st' p x = f.pair st' p0 x0 p x := by
  simp only [FSys.pair, FSys.set, Sys.set, upd_upd]

theorem FSys.pair_self {p0 p1 : Proc} {x0 x1 : FPh} (h0 : f.sys.proc 0 = p0) (h1 : f.sys.proc 1 = p1) (h2 : f.fine 0 = x0) (h3 : f.fine 1 = x1) :
    f.pair f.sys.st p0 x0 p1 x1 = f := by
  subst h0; subst h1; subst h2; subst h3
  simp only [FSys.pair, FSys.set, Sys.set]
  cases f with
  | mk s fine =>
    cases s
    congr 1
    · congr 1
      funext b; simp only [upd]; repeat' split
      all_goals first | rfl | simp_all
    · funext b; simp only [upd]; repeat' split
      all_goals first | rfl | simp_all

theorem FSys.Unprepared.pair (q : f.Unprepared) {st : St} {p0 p1 : Proc} {x0 x1 : FPh} (h0 : p0.prepared = false) (h1 : p1.prepared = false) :
    (f.pair st p0 x0 p1 x1).Unprepared := (q.set h0).set h1

/-- The steps of one round. -/
def roundActs (m0 m1 : Nat) : List FAct :=
  List.replicate (m0 + 1) (.step 0) ++ (List.replicate (m1 + 1) (.step 1) ++ [.step 0, .step 1, .step 0, .step 1, .step 0, .step 1])

/-- One round: the two updates read, take the locks of their nodes, do not get the locks of the parents, and give back what they have. -/
theorem retry_round {k0 k1 : Key} {m0 m1 : Nat} {b0 b1 : Bool} {op0 op1 : UpdOp} (q : f.Unprepared) (h0 : f.sys.proc 0 = .upd (.start k0))
    (h1 : f.sys.proc 1 = .upd (.start k1)) (x0 : f.fine 0 = .none) (x1 : f.fine 1 = .none)
    (s0 : soloN f.sys.st (m0 + 1) (.start k0, .none) = some (.lock b0 op0, .none)) (s1 : soloN f.sys.st (m1 + 1) (.start k1, .none) = some (.lock b1 op1, .none))
    (e0 : op0.key = k0) (e1 : op1.key = k1) (l0 : lockPlan op0.req = some [(op0.node, op0.nodeGen), (op0.parent, op0.parentGen)])
    (l1 : lockPlan op1.req = some [(op1.node, op1.nodeGen), (op1.parent, op1.parentGen)]) (g0 : f.sys.st.gen op0.node = op0.nodeGen)
    (g1 : f.sys.st.gen op1.node = op1.nodeGen) (c0 : sameLock op0.parent op1.node) (c1 : sameLock op1.parent op0.node) (hd : ¬ sameLock op0.node op1.node)
    (n0 : op1.nodeGen + 1 ≠ op0.parentGen) (n1 : op0.nodeGen + 1 ≠ op1.parentGen) :
    FPath env FTwoUpdates FSys.Unprepared f (roundActs m0 m1) f := by
  have hd' : ¬ sameLock op1.node op0.node := fun h => hd (sameLock_comm.1 h)
  obtain ⟨pA, qA⟩ := soloN_path (env := env) (a := 0) m0 q rfl h0 x0 s0
  obtain ⟨pB, qB⟩ := soloN_path (env := env) (a := 1) m1 (f := f.set 0 f.sys.st (.upd (.lock b0 op0)) .none) (st := f.sys.st) qA rfl h1 x1 s1
  refine pA.append (pB.append ?_)
  -- the locks of the nodes
  have tC := cas_first (fetch := env.fetch) (f := f.pair f.sys.st (.upd (.lock b0 op0)) .none (.upd (.lock b1 op1)) .none) (a := 0) rfl rfl rfl l0 g0
  rw [FSys.pair_set0] at tC
  refine FPath.append (l1 := [.step 0]) (.one qB (q.pair rfl rfl) tC) ?_
  have gD : (f.sys.st.setGen op0.node (op0.nodeGen + 1)).gen op1.node = op1.nodeGen := by rw [gen_setGen, if_neg hd, g1]
  have tD := cas_first (fetch := env.fetch) (f := f.pair (f.sys.st.setGen op0.node (op0.nodeGen + 1)) (.upd (.lock b0 op0))
    (.take [(op0.parent, op0.parentGen)] [(op0.node, op0.nodeGen)]) (.upd (.lock b1 op1)) .none) (a := 1) rfl rfl rfl l1 gD
  rw [FSys.pair_set1] at tD
  refine FPath.append (l1 := [.step 1]) (.one (q.pair rfl rfl) (q.pair rfl rfl) tD) ?_
  -- the locks of the parents
  have tE := cas_second (fetch := env.fetch) (f := f.pair ((f.sys.st.setGen op0.node (op0.nodeGen + 1)).setGen op1.node (op1.nodeGen + 1)) (.upd (.lock b0 op0))
    (.take [(op0.parent, op0.parentGen)] [(op0.node, op0.nodeGen)]) (.upd (.lock b1 op1)) (.take [(op1.parent, op1.parentGen)] [(op1.node, op1.nodeGen)]))
    (a := 0) rfl rfl (by
      show ((f.sys.st.setGen op0.node (op0.nodeGen + 1)).setGen op1.node (op1.nodeGen + 1)).gen op0.parent ≠ _
      rw [gen_setGen, if_pos (sameLock_comm.1 c0)]
      exact n0)
  rw [FSys.pair_set0] at tE
  refine FPath.append (l1 := [.step 0]) (.one (q.pair rfl rfl) (q.pair rfl rfl) tE) ?_
  have tF := cas_second (fetch := env.fetch) (f := f.pair ((f.sys.st.setGen op0.node (op0.nodeGen + 1)).setGen op1.node (op1.nodeGen + 1)) (.upd (.start op0.key))
    (.back [(op0.node, op0.nodeGen)]) (.upd (.lock b1 op1)) (.take [(op1.parent, op1.parentGen)] [(op1.node, op1.nodeGen)]))
    (a := 1) rfl rfl (by
      show ((f.sys.st.setGen op0.node (op0.nodeGen + 1)).setGen op1.node (op1.nodeGen + 1)).gen op1.parent ≠ _
      have : ¬ sameLock op1.node op1.parent := fun h => hd' ⟨h.1.trans c1.1, h.2.trans c1.2⟩
      rw [gen_setGen, if_neg this, gen_setGen, if_pos (sameLock_comm.1 c1)]
      exact n1)
  rw [FSys.pair_set1] at tF
  refine FPath.append (l1 := [.step 1]) (.one (q.pair rfl rfl) (q.pair rfl rfl) tF) ?_
  -- giving back
  have eG : ((f.sys.st.setGen op0.node (op0.nodeGen + 1)).setGen op1.node (op1.nodeGen + 1)).gen op0.node - 1 = op0.nodeGen := by
    rw [gen_setGen, if_neg hd', gen_setGen, if_pos (sameLock_refl _)]; omega
  have tG := give_back (fetch := env.fetch) (f := f.pair ((f.sys.st.setGen op0.node (op0.nodeGen + 1)).setGen op1.node (op1.nodeGen + 1)) (.upd (.start op0.key))
    (.back [(op0.node, op0.nodeGen)]) (.upd (.start op1.key)) (.back [(op1.node, op1.nodeGen)])) (a := 0) rfl rfl
  rw [FSys.pair_set0] at tG
  refine FPath.append (l1 := [.step 0]) (.one (q.pair rfl rfl) (q.pair rfl rfl) tG) ?_
  have tH := give_back (fetch := env.fetch) (f := f.pair (((f.sys.st.setGen op0.node (op0.nodeGen + 1)).setGen op1.node (op1.nodeGen + 1)).setGen op0.node
    (((f.sys.st.setGen op0.node (op0.nodeGen + 1)).setGen op1.node (op1.nodeGen + 1)).gen op0.node - 1)) (.upd (.start op0.key))
    .none (.upd (.start op1.key)) (.back [(op1.node, op1.nodeGen)])) (a := 1) rfl rfl
  rw [FSys.pair_set1] at tH
  have eH : (((f.sys.st.setGen op0.node (op0.nodeGen + 1)).setGen op1.node (op1.nodeGen + 1)).setGen op0.node op0.nodeGen).gen op1.node - 1 = op1.nodeGen := by
    rw [gen_setGen, if_neg hd, gen_setGen, if_pos (sameLock_refl _)]; omega
  have e : f.pair ((((f.sys.st.setGen op0.node (op0.nodeGen + 1)).setGen op1.node (op1.nodeGen + 1)).setGen op0.node op0.nodeGen).setGen op1.node op1.nodeGen)
      (.upd (.start op0.key)) .none (.upd (.start op1.key)) .none = f := by
    rw [locks_given_back _ g0 g1]
    exact FSys.pair_self (by rw [h0, e0]) (by rw [h1, e1]) x0 x1
  refine .one (q.pair rfl rfl) q (tH.trans ?_)
  show some (Except.ok (f.pair ((((f.sys.st.setGen op0.node (op0.nodeGen + 1)).setGen op1.node (op1.nodeGen + 1)).setGen op0.node
    (((f.sys.st.setGen op0.node (op0.nodeGen + 1)).setGen op1.node (op1.nodeGen + 1)).gen op0.node - 1)).setGen op1.node
    ((((f.sys.st.setGen op0.node (op0.nodeGen + 1)).setGen op1.node (op1.nodeGen + 1)).setGen op0.node
    (((f.sys.st.setGen op0.node (op0.nodeGen + 1)).setGen op1.node (op1.nodeGen + 1)).gen op0.node - 1)).gen op1.node - 1))
      (.upd (.start op0.key)) .none (.upd (.start op1.key)) .none)) = _
  rw [eG, eH, e]

end

/-! ## The keys -/

/-- Keys that have all but the last byte in common: their node takes up much memory. -/
def fillKey (n : Nat) (c y : UInt8) : Key := c :: (List.replicate n 99 ++ [y])

/-- The keys "aaa", "ab", "bb", "aab", "ac", "baa", "bab", and eight pairs of long ones. -/
def crossKeys : List Key :=
  [[97, 97, 97], [97, 98], [98, 98], [97, 97, 98], [97, 99], [98, 97, 97], [98, 97, 98]] ++
  ([100, 101, 102, 103, 104, 105, 106].flatMap fun c => [fillKey 4000 c 0, fillKey 4000 c 1]) ++ [fillKey 4120 107 0, fillKey 4120 107 1]

theorem crossKeys_good : goodKeys crossKeys = true := by decide +kernel

/-- The keys are inserted, "baa" and "bab" at the end.  The node for "aaa" and "aab" is at address 8 and its parent at address 10, the node for "baa" and
"bab" at address 4106 and its parent at address 4104.  Then the updates of "aab" and "bab" begin. -/
def crossActs : List Act :=
  [.block] ++ putActs 0 [97, 97, 97] 0 2 ++ putActs 0 [97, 98] 1 2 ++ putActs 0 [98, 98] 2 6 ++ putActs 0 [97, 97, 98] 3 10 ++ putActs 0 [97, 99] 4 10 ++
  ((List.range 16).flatMap fun i => putActs 0 (crossKeys.getD (i + 7) []) (UInt64.ofNat (i + 7)) 6) ++
  putActs 0 [98, 97, 97] 5 6 ++ putActs 0 [98, 97, 98] 6 10 ++
  [.begin 0 (.update [97, 97, 98]), .arm 0, .begin 1 (.update [98, 97, 98]), .arm 1]

/-- What the two updates find. -/
def crossB (s : Sys) (m0 m1 : Nat) : Bool :=
  (match s.proc 0 with | .upd (.start k) => decide (k = [97, 97, 98]) | _ => false) &&
  (match s.proc 1 with | .upd (.start k) => decide (k = [98, 97, 98]) | _ => false) &&
  unpreparedB s &&
  match soloN s.st (m0 + 1) (.start [97, 97, 98], .none), soloN s.st (m1 + 1) (.start [98, 97, 98], .none) with
  | some (.lock _ op0, .none), some (.lock _ op1, .none) =>
    decide (op0.key = [97, 97, 98] ∧ op1.key = [98, 97, 98]) && decide (op0.node = 8 ∧ op0.parent = 10 ∧ op1.node = 4106 ∧ op1.parent = 4104) &&
    decide (s.st.gen 8 = op0.nodeGen ∧ s.st.gen 4106 = op1.nodeGen) &&
    decide (op0.nodeGen % 2 = 0 ∧ op0.parentGen % 2 = 0 ∧ op1.nodeGen % 2 = 0 ∧ op1.parentGen % 2 = 0)
  | _, _ => false

/-- Guard of the execution: at most two updates at a time. -/
def twoB (s : Sys) : Act → Bool
  | .begin _ (.update _) => busyB s 1 && noDelB s
  | .begin _ _ => false
  | .quit _ => false
  | .slip _ => false
  | _ => true

theorem twoB_sound {env : Env} (s : Sys) (σ : Spec) (act : Act) (h : Run env (fun s act => TwoUpdates s act ∧ NoSlip s act) s σ) (hb : twoB s act = true) :
    TwoUpdates s act ∧ NoSlip s act := by
  obtain ⟨_, t, seen, hI, _⟩ := (h.mono fun _ _ h => h.1).twoUpdates
  have hoff := hI.mem.off
  cases act with
  | begin a c =>
    cases c with
    | update k =>
      simp only [twoB, Bool.and_eq_true] at hb
      exact ⟨⟨busyB_one hoff hb.1, noDelB_sound hoff hb.2⟩, fun _ h => (by cases h)⟩
    | _ => cases hb
  | quit a => cases hb
  | slip a => cases hb
  | _ => exact ⟨trivial, fun _ h => (by cases h)⟩

/-- At most two updates are under way at any time, and then two `PrepareUpdate` take as many steps as one likes while no operation is prepared; every
round ends in the state in which it has begun. -/
theorem C44_retry_for_ever : ∃ (l : List Key) (h : goodKeys l = true) (f : FSys) (σ : Spec), FRun (Env.ofList l h) FTwoUpdates f σ ∧
    σ.call 0 = .update [97, 97, 98] ∧ σ.call 1 = .update [98, 97, 98] ∧
    ∀ n, ∃ acts, FPath (Env.ofList l h) FTwoUpdates FSys.Unprepared f acts f ∧ n ≤ acts.count (.step 0) ∧ n ≤ acts.count (.step 1) := by
  obtain ⟨s, σ, hr, hc⟩ := Run.ofCheck (h := crossKeys_good) twoB_sound (n := 2) (acts := crossActs) (check := fun s _ => crossB s 16 17) (by decide +kernel)
  have hrun := hr.mono fun _ _ h => h.1
  obtain ⟨hcalm, t, seen, hI, _⟩ := hrun.twoUpdates
  unfold crossB at hc
  simp only [Bool.and_eq_true] at hc
  obtain ⟨⟨⟨c1, c2⟩, c3⟩, c4⟩ := hc
  have p0 : s.proc 0 = .upd (.start [97, 97, 98]) := by
    split at c1
    · rename_i k hp; rw [hp, of_decide_eq_true c1]
    · cases c1
  have p1 : s.proc 1 = .upd (.start [98, 97, 98]) := by
    split at c2
    · rename_i k hp; rw [hp, of_decide_eq_true c2]
    · cases c2
  have q : FSys.Unprepared ⟨s, fun _ => .none⟩ := unpreparedB_sound hI.mem.off c3
  refine ⟨crossKeys, crossKeys_good, ⟨s, fun _ => .none⟩, σ, C61_two_updates hr, hcalm.call 0 _ (by rw [p0]; rfl), hcalm.call 1 _ (by rw [p1]; rfl), ?_⟩
  split at c4
  · rename_i b0 op0 b1 op1 s0 s1
    simp only [Bool.and_eq_true, decide_eq_true_eq] at c4
    obtain ⟨⟨⟨⟨k0, k1⟩, n0, a0, n1, a1⟩, g0, g1⟩, d0, d1, d2, d3⟩ := c4
    have round := retry_round (env := Env.ofList crossKeys crossKeys_good) (f := ⟨s, fun _ => .none⟩) q p0 p1 rfl rfl s0 s1 k0 k1
      (two_plan (by omega) d0 d1 (by rw [n0, a0]; decide)) (two_plan (by omega) d2 d3 (by rw [n1, a1]; decide))
      (by rw [n0]; exact g0) (by rw [n1]; exact g1) (by rw [a0, n1]; decide) (by rw [a1, n0]; decide) (by rw [n0, n1]; decide) (by omega) (by omega)
    intro n
    induction n with
    | zero => exact ⟨[], .nil q, Nat.zero_le _, Nat.zero_le _⟩
    | succ n ih =>
      obtain ⟨acts, h1, h2, h3⟩ := ih
      refine ⟨_, round.append h1, ?_, ?_⟩
      · rw [List.count_append]
        have : 1 ≤ (roundActs 16 17).count (.step 0) := by decide
        omega
      · rw [List.count_append]
        have : 1 ≤ (roundActs 16 17).count (.step 1) := by decide
        omega
  · cases c4

/-- C44 does not hold for updates that retry. -/
theorem C44_does_not_hold : ¬ C44_statement := by
  intro hall
  obtain ⟨l, hl, f, σ, h1, h2, _, h3⟩ := C44_retry_for_ever
  obtain ⟨bound, hb⟩ := hall _ f σ h1 0 _ h2
  obtain ⟨acts, h4, h5, _⟩ := h3 (bound + 1)
  have := hb acts f h4
  omega

end Radix
