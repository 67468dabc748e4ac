import Verif.FineSpec
import Verif.Split
import Verif.Sys.FineInv
import Verif.ReadersProof
/-!
# The executions of `Verif/Model/Sys.lean`, with one access per step

Every step of `Verif/Model/Sys.lean` (but `slip`, which stands for interruptions) can be performed access by access, without interruption.
-/
set_option autoImplicit false
namespace Radix

/-! ## Reading without interruption -/

section
variable {st : St}

theorem run_scanAt {data : Slice} {k : UInt8} : ∀ (n i : Nat) (a : Word), i + n ≤ data.len →
    (scanAt data k n i a).run st = .ok (if n = 0 then (i, a) else
      (i + (scan k (readWords st.mem (data.base + i) n)).1, (scan k (readWords st.mem (data.base + i) n)).2))
  | 0, _, _, _ => rfl
  | n + 1, i, a, h => by
    unfold scanAt
    rw [run_bind, run_getP]
    unfold Slice.get
    rw [if_pos (by omega)]
    simp only [bind, Except.bind]
    rw [run_ite, run_scanAt n (i + 1) _ (by omega)]
    rw [if_neg (Nat.succ_ne_zero n), readWords_succ, run_pure]
    cases n with
    | zero =>
      show (if _ then _ else _) = Except.ok (i + (scan k [_]).1, (scan k [_]).2)
      unfold scan
      rw [if_pos rfl]
      by_cases hk : keyByte (st.mem (data.base + i)) ≥ k
      · rw [if_pos hk, if_pos hk]; rfl
      · rw [if_neg hk, if_neg hk]
    | succ n =>
      rw [if_neg (Nat.succ_ne_zero n), readWords_succ st.mem (data.base + i + 1), ← Nat.add_assoc, readWords_succ]
      conv => rhs; unfold scan
      by_cases hk : keyByte (st.mem (data.base + i)) ≥ k
      · rw [if_pos hk, if_pos hk]; rfl
      · rw [if_neg hk, if_neg hk]
        simp only
        rw [Nat.add_assoc, Nat.add_comm 1]

theorem run_scanAt_words (data : Slice) (k : UInt8) (n : Nat) :
    (do data.checkP n; scanAt data k n 0 0 : Prog _).run st = (Slice.words st.mem data n).map (scan k) := by
  rw [run_bind]
  unfold Slice.checkP Slice.words
  by_cases h : n ≤ data.len
  · rw [if_pos h, if_pos h]
    show (scanAt data k n 0 0).run st = _
    rw [run_scanAt n 0 0 (by omega)]
    cases n with
    | zero => rfl
    | succ n => simp [Except.map]
  · rw [if_neg h, if_neg h]; rfl

theorem run_childrenUP (op : UpdOp) (data : Slice) : (childrenUP op data).run st = childrenU st.mem op data := by
  rw [childrenU_eq]
  unfold childrenUP
  rw [run_bind, run_ret]
  refine res_bind_congr fun k _ => ?_
  rw [run_ite]
  split
  · rw [run_bind, run_getP]
    cases data.get st.mem k.toNat <;> rfl
  · have := run_scanAt_words (st := st) data k op.count
    rw [run_bind] at this ⊢
    cases hc : (data.checkP op.count).run st with
    | error e =>
      rw [hc] at this
      cases hw : Slice.words st.mem data op.count with
      | error e => rw [hw] at this; cases this; rfl
      | ok ws => rw [hw] at this; cases this
    | ok u =>
      rw [hc] at this
      simp only [bind, Except.bind] at this ⊢
      show (Prog.bind _ _).run st = _
      have e := run_bind (st := st) (scanAt data k op.count 0 0) (fun r => pure ({ op with k := k }.kid data.base r.1 r.2))
      refine e.trans ?_
      rw [this]
      cases Slice.words st.mem data op.count <;> rfl

theorem run_bodyUP (op : UpdOp) : (bodyUP op).run st = bodyU st op := by
  unfold bodyUP bodyU
  rw [run_bind, run_nodeDataP]
  refine res_bind_congr fun data _ => ?_
  rw [run_ite]
  split
  · rw [run_bind, run_appendPrefixP]
    refine res_bind_congr fun r _ => ?_
    obtain ⟨pfx, slots⟩ := r
    simp only
    rw [run_bind, run_ret]
    refine res_bind_congr fun r _ => ?_
    cases r with
    | some i =>
      rw [run_bind, run_ret]
      rfl
    | none =>
      simp only
      rw [run_bind, run_ret]
      refine res_bind_congr fun data' _ => ?_
      exact run_childrenUP _ _
  · exact run_childrenUP _ _

theorem run_childrenDP (cur : DelCur) (count plen : Nat) (data : Slice) :
    (childrenDP cur count plen data).run st = childrenD st.mem cur count plen data := by
  rw [childrenD_eq]
  unfold childrenDP
  rw [run_ite]
  split
  · rfl
  rw [run_bind, run_ret]
  refine res_bind_congr fun k _ => ?_
  rw [run_ite]
  split
  · rw [run_bind, run_getP]
    cases data.get st.mem k.toNat <;> rfl
  · have := run_scanAt_words (st := st) data k count
    rw [run_bind] at this ⊢
    cases hc : (data.checkP count).run st with
    | error e =>
      rw [hc] at this
      cases hw : Slice.words st.mem data count with
      | error e => rw [hw] at this; cases this; rfl
      | ok ws => rw [hw] at this; cases this
    | ok u =>
      rw [hc] at this
      simp only [bind, Except.bind] at this ⊢
      show (Prog.bind _ _).run st = _
      have e := run_bind (st := st) (scanAt data k count 0 0) (fun r => pure (cur.kid count plen data.base k r.1 r.2))
      refine e.trans ?_
      rw [this]
      cases Slice.words st.mem data count <;> rfl

theorem run_bodyDP (cur : DelCur) : (bodyDP cur).run st = bodyD st cur := by
  unfold bodyDP bodyD
  rw [run_bind, run_nodeDataP]
  refine res_bind_congr fun data _ => ?_
  rw [run_bind, run_skipPrefixP]
  refine res_bind_congr fun r _ => ?_
  obtain ⟨plen, slots, data'⟩ := r
  exact run_childrenDP _ _ _ _

theorem run_mergeP (cur : DelCur) (other : Word) (plen : Nat) : (mergeP cur other plen).run st = mergeRead st cur other plen := by
  unfold mergeP mergeRead
  rw [run_bind, run_appendPrefixP]
  refine res_bind_congr fun r _ => ?_
  obtain ⟨pfx, slots⟩ := r
  simp only
  rw [run_bind, run_nodeDataP]
  refine res_bind_congr fun data _ => ?_
  rw [run_bind, run_appendPrefixP]
  refine res_bind_congr fun r _ => ?_
  rfl

end

/-! ## One allocator at a place inside a step, all others at none -/

def Sys.at (s : Sys) (a : Nat) (st : St) (p : Proc) (ph : FPh) : FSys := ⟨s.set a st p, upd (fun _ => .none) a ph⟩

/-- No allocator is inside a step. -/
def Sys.rest (s : Sys) : FSys := ⟨s, fun _ => .none⟩

theorem upd_none (a : Nat) : upd (fun _ => FPh.none) a .none = fun _ => .none := upd_self _ a

theorem Sys.at_rest (s : Sys) (a : Nat) : s.rest = s.at a s.st (s.proc a) .none := by
  unfold Sys.at Sys.rest Sys.set
  rw [upd_self, upd_none]

theorem Sys.at_none (s : Sys) (a : Nat) (st : St) (p : Proc) : s.at a st p .none = (s.set a st p).rest := by
  unfold Sys.at Sys.rest
  rw [upd_none]

theorem Sys.at_set (s : Sys) (a : Nat) (st st' : St) (p p' : Proc) (ph ph' : FPh) : (s.at a st p ph).set a st' p' ph' = s.at a st' p' ph' := by
  unfold Sys.at FSys.set
  rw [Sys.set_set, upd_upd]

@[simp] theorem Sys.at_fine (s : Sys) (a : Nat) (st : St) (p : Proc) (ph : FPh) : (s.at a st p ph).fine a = ph := by simp [Sys.at]
@[simp] theorem Sys.at_proc (s : Sys) (a : Nat) (st : St) (p : Proc) (ph : FPh) : (s.at a st p ph).sys.proc a = p := by simp [Sys.at, Sys.set]
@[simp] theorem Sys.at_st (s : Sys) (a : Nat) (st : St) (p : Proc) (ph : FPh) : (s.at a st p ph).sys.st = st := rfl

/-- The operation can be inside a step. -/
def Proc.inside : Proc → Bool
  | .upd (.start _) => true
  | .upd (.root _ _) => true
  | .upd (.body _) => true
  | .upd (.lock _ _) => true
  | .del (.start _) => true
  | .del (.root _ _) => true
  | .del (.body _) => true
  | .del (.lock _) => true
  | .del (.lock3 _ _ _) => true
  | _ => false

/-- The restriction `H` allows the accesses of the steps that `G` allows. -/
structure FitsFine (env : Env) (G : Sys → Act → Prop) (H : FSys → FAct → Prop) : Prop where
  same : ∀ {s : Sys} {act : FAct}, G s act.act → H s.rest act
  within : ∀ {f : FSys} {a : Nat}, (f.sys.proc a).inside = true → f.fine a ≠ .none → (∀ got P, f.fine a ≠ .merge got P) → H f (.step a)
  merge : ∀ {s : Sys} {a : Nat} {cur : DelCur} {other : Word} {plen : Nat} {st : St} {got : List (Nat × Int)} {P : Prog DPh}, G s (.run a) →
    s.proc a = .del (.lock3 cur other plen) → cur.op.req3.run s.st = (true, st) → H (s.at a st (s.proc a) (.merge got P)) (.step a)
  build : ∀ {s : Sys} {a : Nat} {v : Word}, G s (.publish a v) → H s.rest (.build a v)
  commit : ∀ {s s' : Sys} {a : Nat} {v : Word}, G s (.publish a v) → exec env.fetch s (.build a v) = some (.ok (s', .none)) → H s'.rest (.commit a)
  void : ∀ {s : Sys} {a : Nat} {cur : DelCur}, s.proc a = .del (.held cur) → cur.op.kind = .notFound → H s.rest (.quit a)
  quit : ∀ {s : Sys} {a : Nat} {r : Sys × Ev}, G s (.abort a) → exec env.fetch s (.abort a) = some (.ok r) → H s.rest (.quit a)
  unlock : ∀ {f : FSys} {a : Nat}, H f (.unlock a)
  tail : ∀ {f : FSys} {a : Nat}, H f (.tail a)

section
variable {env : Env} {G : Sys → Act → Prop} {H : FSys → FAct → Prop} {s : Sys} {σ : Spec} {a : Nat} {p : Proc}

theorem FRun.access {f f' : FSys} (h : FRun env H f σ) (hH : H f (.step a)) (he : fstep env.fetch f a = some (.ok f')) : FRun env H f' σ :=
  .step (act := .step a) (ev := .none) h trivial hH (by simp only [fexec, he]; rfl)

/-- What is left of a program after a load. -/
def Prog.after {α : Type} (done : α → FSys) (more : Prog α → FSys) : Prog α → Res FSys
  | .ret r => r.map done
  | P => .ok (more P)

/-- The loads of a program, one after the other. -/
theorem FRun.reads {α : Type} {st : St} {mk : Prog α → FPh} {wrap : α → Proc}
    (hstep : ∀ P, fstep env.fetch (s.at a st p (mk P)) a = some ((P.next st).after (fun x => s.at a st (wrap x) .none) (fun P' => s.at a st p (mk P'))))
    (hH : ∀ P, H (s.at a st p (mk P)) (.step a)) {x : α} : ∀ (P : Prog α) {f : FSys},
    fstep env.fetch f a = some ((P.next st).after (fun x => s.at a st (wrap x) .none) (fun P' => s.at a st p (mk P'))) → H f (.step a) → FRun env H f σ → P.run st = .ok x →
    FRun env H (s.at a st (wrap x) .none) σ := by
  have key : ∀ (P' : Prog α), (∀ {f : FSys}, fstep env.fetch f a = some ((P'.next st).after (fun x => s.at a st (wrap x) .none) (fun P' => s.at a st p (mk P'))) → H f (.step a) → FRun env H f σ → P'.run st = .ok x → FRun env H (s.at a st (wrap x) .none) σ) →
      ∀ {f : FSys}, fstep env.fetch f a = some (P'.after (fun x => s.at a st (wrap x) .none) (fun P' => s.at a st p (mk P'))) → H f (.step a) → FRun env H f σ → P'.run st = .ok x → FRun env H (s.at a st (wrap x) .none) σ := by
    intro P' ih f he hf h hr
    cases P' with
    | ret r =>
      have hr : r = .ok x := hr
      subst hr
      exact h.access hf he
    | root k => exact ih (hstep _) (hH _) (h.access hf he) hr
    | blocks k => exact ih (hstep _) (hH _) (h.access hf he) hr
    | load y k => exact ih (hstep _) (hH _) (h.access hf he) hr
  intro P
  induction P with
  | ret r =>
    intro f he hf h hr
    have hr : r = .ok x := hr
    subst hr
    exact h.access hf he
  | root k ih => exact fun he hf h hr => key _ (ih _) he hf h hr
  | blocks k ih => exact fun he hf h hr => key _ (ih _) he hf h hr
  | load y k ih => exact fun he hf h hr => key _ (ih _) he hf h hr

/-- Giving back locks. -/
theorem FRun.gives (hF : FitsFine env G H) (hp : p.inside = true) : ∀ (todo : List (Nat × Int)) {st : St}, todo ≠ [] →
    FRun env H (s.at a st p (.back todo)) σ →
    FRun env H (s.at a (todo.foldl (fun st x => st.setGen x.1 (st.gen x.1 - 1)) st) p .none) σ
  | [], _, hn, _ => absurd rfl hn
  | (n, g) :: todo, st, _, h => by
    have h1 := h.access (hF.within (a := a) (by rw [Sys.at_proc]; exact hp) (by rw [Sys.at_fine]; simp) (by rw [Sys.at_fine]; simp))
      (f' := s.at a (st.setGen n (st.gen n - 1)) p (if todo.isEmpty then .none else .back todo)) (by
        unfold fstep
        rw [Sys.at_fine, Sys.at_proc]
        simp only [Sys.at_set, Sys.at_st])
    cases todo with
    | nil => exact h1
    | cons x todo => exact FRun.gives hF hp (x :: todo) (by simp) h1

/-- The compare-and-swaps of a lock call. -/
theorem FRun.takes (hF : FitsFine env G H) (hp : p.inside = true) {again won : Proc} (hag : again.inside = true) {wonAt : List (Nat × Int) → FPh}
    (hstep : ∀ st todo got, todo ≠ [] → fstep env.fetch (s.at a st p (.take todo got)) a =
      some (.ok ((s.at a st p (.take todo got)).cas a again won wonAt todo got))) :
    ∀ (todo : List (Nat × Int)) {got : List (Nat × Int)} {st : St} {ph : FPh}, todo ≠ [] →
    fstep env.fetch (s.at a st p ph) a = some (.ok ((s.at a st p ph).cas a again won wonAt todo got)) → H (s.at a st p ph) (.step a) →
    FRun env H (s.at a st p ph) σ →
    ((runLock st todo got).1 = true → ∃ got', FRun env H (s.at a (runLock st todo got).2 won (wonAt got')) σ) ∧
    ((runLock st todo got).1 = false → FRun env H (s.at a (runLock st todo got).2 again .none) σ)
  | [], _, _, _, hn, _, _, _ => absurd rfl hn
  | (n, g) :: todo, got, st, ph, _, he, hH, h => by
    simp only [FSys.cas, Sys.at_st, Sys.at_proc, Sys.at_set] at he
    simp only [runLock]
    by_cases hg : st.gen n = g
    · rw [if_pos hg] at he ⊢
      cases todo with
      | nil =>
        have h1 := h.access hH he
        exact ⟨fun _ => ⟨_, h1⟩, fun e => (by cases e)⟩
      | cons x todo =>
        have h1 := h.access hH he
        refine FRun.takes hF hp hag hstep (x :: todo) (by simp) ?_ (hF.within (by rw [Sys.at_proc]; exact hp) ?_ ?_) h1
        · exact hstep _ _ _ (by simp)
        · rw [Sys.at_fine]; simp
        · rw [Sys.at_fine]; simp
    · rw [if_neg hg] at he ⊢
      refine ⟨fun e => (by cases e), fun _ => ?_⟩
      have h1 := h.access hH he
      cases got with
      | nil => exact h1
      | cons x got => exact FRun.gives hF hag (x :: got) (by simp) h1

/-- A lock call. -/
theorem FRun.locks (hF : FitsFine env G H) (hp : (s.proc a).inside = true) {again won : Proc} (hag : again.inside = true) {wonAt : List (Nat × Int) → FPh}
    {req : LockReq}
    (hfirst : fstep env.fetch s.rest a = some (.ok (s.rest.casFirst a again won wonAt req)))
    (hstep : ∀ st todo got, todo ≠ [] → fstep env.fetch (s.at a st (s.proc a) (.take todo got)) a =
      some (.ok ((s.at a st (s.proc a) (.take todo got)).cas a again won wonAt todo got)))
    (hH : H s.rest (.step a)) (h : FRun env H s.rest σ) :
    ((req.run s.st).1 = true → ∃ got', FRun env H (s.at a (req.run s.st).2 won (wonAt got')) σ) ∧
    ((req.run s.st).1 = false → FRun env H (s.at a (req.run s.st).2 again .none) σ) := by
  rw [LockReq.run_eq]
  unfold FSys.casFirst at hfirst
  cases hpl : lockPlan req with
  | none =>
    rw [hpl] at hfirst
    refine ⟨fun e => (by cases e), fun _ => ?_⟩
    have := h.access hH hfirst
    rw [Sys.at_rest s a, Sys.at_set] at this
    exact this
  | some plan =>
    rw [hpl] at hfirst
    simp only at hfirst ⊢
    rw [Sys.at_rest s a] at hfirst hH h
    exact FRun.takes hF hp hag hstep plan (lockPlan_ne hpl) hfirst hH h


/-! ## Releasing locks -/

theorem unlockWords_cons (st : St) (D : List Nat) (n : Nat) (l : List Nat) : st.unlockWords D (n :: l) =
    if D.all (lockDiffer n) then (do let st ← st.unlockNode n; st.unlockWords (n :: D) l) else st.unlockWords D l := by
  rfl

theorem unlockWords_congr : ∀ (l : List Nat) {st : St} {D D' : List Nat}, (∀ m, D.all (lockDiffer m) = D'.all (lockDiffer m)) →
    st.unlockWords D l = st.unlockWords D' l
  | [], _, _, _, _ => rfl
  | n :: l, st, D, D', h => by
    rw [unlockWords_cons, unlockWords_cons, h n]
    split
    · refine res_bind_congr fun st' _ => unlockWords_congr l fun m => ?_
      rw [List.all_cons, List.all_cons, h m]
    · exact unlockWords_congr l h

theorem unlockWords_filter (n : Nat) : ∀ (l : List Nat) {st : St} {D : List Nat},
    st.unlockWords (n :: D) l = st.unlockWords D (l.filter fun m => lockDiffer m n)
  | [], _, _ => rfl
  | m :: l, st, D => by
    rw [unlockWords_cons, List.all_cons, List.filter_cons]
    cases hd : lockDiffer m n with
    | false =>
      simp only [Bool.false_and, Bool.false_eq_true, if_false]
      exact unlockWords_filter n l
    | true =>
      simp only [Bool.true_and, if_true]
      rw [unlockWords_cons]
      split
      · refine res_bind_congr fun st' _ => ?_
        rw [← unlockWords_filter n l]
        refine unlockWords_congr l fun k => ?_
        simp only [List.all_cons]
        cases lockDiffer k m <;> cases lockDiffer k n <;> simp
      · exact unlockWords_filter n l

theorem unlockBy_words (st : St) {u : Unlock} (h : u ≠ .root) : st.unlockBy u = st.unlockWords [] u.plan := by
  have one : ∀ (st : St) (n : Nat), st.unlockNode n = (st.unlockNode n >>= Except.ok) := by
    intro st n; cases st.unlockNode n <;> rfl
  have two : ∀ (node parent : Nat), st.unlockNodes2 node parent = st.unlockWords [] (if parent = 0 then [node] else [parent, node]) := by
    intro node parent
    unfold St.unlockNodes2
    split
    · simp only [St.unlockWords, List.all_nil, if_true]
      exact one _ _
    · simp only [St.unlockWords, List.all_nil, if_true, List.all_cons, Bool.and_true]
      refine res_bind_congr fun st' _ => ?_
      split
      · exact one _ _
      · rfl
  cases u with
  | none => rfl
  | root => exact absurd rfl h
  | words l => rfl
  | two node parent => exact two node parent
  | three child node parent =>
    simp only [St.unlockBy, St.unlockNodes3, Unlock.plan]
    split
    · exact two child node
    · simp only [St.unlockWords, List.all_nil, if_true, List.all_cons, Bool.and_true]
      refine res_bind_congr fun st' _ => ?_
      cases hd : lockDiffer node parent with
      | true =>
        simp only [if_true]
        refine res_bind_congr fun st2 _ => ?_
        rw [Bool.and_comm]
        split
        · exact one _ _
        · rfl
      | false =>
        simp only [Bool.false_eq_true, if_false]
        have e : lockDiffer child node = lockDiffer child parent := by
          have h1 := (lockDiffer_false _ _).1 hd
          cases h2 : lockDiffer child parent with
          | false => exact (lockDiffer_false _ _).2 (sameLock_trans ((lockDiffer_false _ _).1 h2) (sameLock_comm.1 h1))
          | true =>
            refine (lockDiffer_iff _ _).2 fun h3 => ?_
            exact (lockDiffer_iff _ _).1 h2 (sameLock_trans h3 h1)
        show (if _ then _ else _) = _
        rw [e, Bool.and_self]
        show (if _ then _ else _) = (if _ then _ else _)
        split
        · exact one _ _
        · rfl

theorem unlockBy_one {st st1 : St} {u : Unlock} (hu : u ≠ .root) {n : Nat} {l : List Nat} (hpl : u.plan = n :: l) (h : st.unlockBy u = .ok st1) :
    ∃ st', st.unlockOne u = some (.ok (.words (l.filter fun m => lockDiffer m n), st')) ∧
      st'.unlockWords [] (l.filter fun m => lockDiffer m n) = .ok st1 := by
  rw [unlockBy_words st hu, hpl] at h
  unfold St.unlockWords at h
  simp only [List.all_nil, if_true] at h
  cases hn : st.unlockNode n with
  | error e => rw [hn] at h; cases h
  | ok st' =>
    rw [hn] at h
    refine ⟨st', ?_, ?_⟩
    · unfold St.unlockOne
      cases u with
      | root => exact absurd rfl hu
      | _ => simp only [hpl, hn]; rfl
    · rw [← unlockWords_filter]
      exact h

/-- No lock left. -/
def Unlock.done (u : Unlock) : Prop := u ≠ .root ∧ u.plan = []

theorem Unlock.done.by {u : Unlock} (h : u.done) (st : St) : st.unlockBy u = .ok st := by
  rw [unlockBy_words st h.1, h.2]; rfl

/-- The rest of `Finalize`. -/
def tailProc (d b : Bool) (tl : Tail) : Proc := if d then .del (.tail b tl) else .upd (.tail b tl)

theorem FRun.unlockStep (hF : FitsFine env G H) {st st' : St} {d b : Bool} {tl : Tail} {u : Unlock}
    (h : FRun env H (s.set a st (tailProc d b tl)).rest σ) (hu : st.unlockOne tl.unl = some (.ok (u, st'))) :
    FRun env H (s.set a st' (tailProc d b { tl with unl := u })).rest σ := by
  refine .step (act := .unlock a) (ev := .none) h trivial hF.unlock ?_
  cases d <;>
  · simp only [fexec, FAct.act, exec, Sys.rest, Sys.set_self, Sys.set_st, tailProc, if_true, if_false, Bool.false_eq_true, hu, Option.map_some, bind, Except.bind,
      pure, Except.pure, Sys.set_set]

theorem FRun.unlocks (hF : FitsFine env G H) {d b : Bool} {tl : Tail} : ∀ (m : Nat) {st st1 : St} {u : Unlock}, u.plan.length ≤ m →
    FRun env H (s.set a st (tailProc d b { tl with unl := u })).rest σ → st.unlockBy u = .ok st1 →
    ∃ u', u'.done ∧ FRun env H (s.set a st1 (tailProc d b { tl with unl := u' })).rest σ := by
  have base : ∀ {st st1 : St} {u : Unlock}, u ≠ .root → u.plan = [] →
      FRun env H (s.set a st (tailProc d b { tl with unl := u })).rest σ → st.unlockBy u = .ok st1 →
      ∃ u', u'.done ∧ FRun env H (s.set a st1 (tailProc d b { tl with unl := u' })).rest σ := by
    intro st st1 u h1 h2 h h3
    have hd : u.done := ⟨h1, h2⟩
    rw [hd.by] at h3
    cases h3
    exact ⟨u, hd, h⟩
  have root : ∀ {st st1 : St}, FRun env H (s.set a st (tailProc d b { tl with unl := .root })).rest σ → st.unlockBy .root = .ok st1 →
      ∃ u', u'.done ∧ FRun env H (s.set a st1 (tailProc d b { tl with unl := u' })).rest σ := by
    intro st st1 h h3
    cases h3
    exact ⟨.none, ⟨by simp, rfl⟩, h.unlockStep hF (tl := { tl with unl := .root }) rfl⟩
  intro m
  induction m with
  | zero =>
    intro st st1 u hm h hu
    by_cases hr : u = .root
    · subst hr; exact root h hu
    · exact base hr (List.length_eq_zero_iff.1 (by omega)) h hu
  | succ m ih =>
    intro st st1 u hm h hu
    by_cases hr : u = .root
    · subst hr; exact root h hu
    · cases hpl : u.plan with
      | nil => exact base hr hpl h hu
      | cons n l =>
        obtain ⟨st', h1, h2⟩ := unlockBy_one hr hpl hu
        refine ih (u := .words (l.filter fun m => lockDiffer m n)) ?_ (h.unlockStep hF (tl := { tl with unl := u }) h1) h2
        have := List.length_filter_le (fun m => lockDiffer m n) l
        rw [hpl] at hm
        simp only [List.length_cons, Unlock.plan] at hm ⊢
        omega

/-- The rest of `Finalize`, or of `Abort`. -/
theorem FRun.tails (hF : FitsFine env G H) {st st' : St} {d b : Bool} {tl : Tail} (h : FRun env H (s.set a st (tailProc d b tl)).rest σ)
    (ht : st.runTail a tl = .ok st') : FRun env H (s.set a st' .idle).rest σ := by
  unfold St.runTail at ht
  cases hu : st.unlockBy tl.unl with
  | error e => rw [hu] at ht; cases ht
  | ok st1 =>
    obtain ⟨u, hd, h1⟩ := FRun.unlocks hF (tl := tl) _ (Nat.le_refl _) h hu
    have ht' : st1.runTail a { tl with unl := u } = .ok st' := by
      unfold St.runTail
      rw [hd.by]
      rw [hu] at ht
      exact ht
    refine .step (act := .tail a) (ev := .none) h1 trivial hF.tail ?_
    have hr : (tailProc d b { tl with unl := u }).released = true := by
      cases d <;> simp [tailProc, Proc.released, hd.1, hd.2]
    simp only [fexec, Sys.rest, Sys.set_self, hr, if_true]
    cases d <;>
    · simp only [exec, Sys.set_self, Sys.set_st, tailProc, if_true, if_false, Bool.false_eq_true, ht', Option.map_some, bind, Except.bind,
        pure, Except.pure, Sys.set_set]


theorem addItems_none (st : St) (a : Nat) : st.addItems a 0 = st := by
  unfold St.addItems
  simp only [Int.add_zero, upd_self]

theorem runTail_only (st : St) (a : Nat) (u : Unlock) : st.runTail a { unl := u } = (do let st ← st.unlockBy u; return st.endOp a) := by
  unfold St.runTail
  simp only [pure_bind, addItems_none]

theorem abortU_tail (st : St) (a : Nat) (op : UpdOp) : abortU st a op = st.runTail a { unl := op.abortUnl } := by
  rw [runTail_only]
  unfold abortU UpdOp.abortUnl
  cases op.kind <;> rfl

theorem abortD_tail (st : St) (a : Nat) (op : DelOp) : abortD st a op = st.runTail a { unl := op.abortUnl } := by
  rw [runTail_only]
  unfold abortD DelOp.abortUnl
  cases op.kind <;> rfl

/-- The steps that are the same. -/
theorem FRun.sameStep (hF : FitsFine env G H) (h : FRun env H s.rest σ) {act : FAct} {s' : Sys} {ev : Ev} (hal : env.Allowed s act.act) (hG : G s act.act)
    (hne : ∀ b, act ≠ .step b ∧ act ≠ .tail b) (he : exec env.fetch s act.act = some (.ok (s', ev))) : FRun env H s'.rest (σ.next ev) := by
  refine .step (act := act) h hal (hF.same hG) ?_
  have : fexec env.fetch s.rest act = (exec env.fetch s act.act).map fun r => do
      let r ← r
      return (⟨r.1, s.rest.fine⟩, r.2) := by
    cases act
    case step b => exact absurd rfl (hne b).1
    case tail b => exact absurd rfl (hne b).2
    all_goals rfl
  rw [this, he]
  rfl

/-- A step with a single access. -/
theorem FRun.single (hF : FitsFine env G H) (h : FRun env H s.rest σ) {s' : Sys} {ev : Ev} (hG : G s (.run a))
    (hst : fstep env.fetch s.rest a = (exec env.fetch s (.run a)).map fun r => do
      let r ← r
      return ⟨r.1, s.rest.fine⟩) (he : exec env.fetch s (.run a) = some (.ok (s', ev))) : FRun env H s'.rest (σ.next .none) := by
  refine h.access (a := a) (hF.same hG) ?_
  rw [hst, he]
  rfl

theorem next_none (σ : Spec) : σ.next .none = σ := rfl

theorem stepU_rootHeld (st : St) (key : Key) (root : Word) : stepU st (.root key root) = match st.lockLeafRoot root with
    | (false, st) => .ok (.start key, st)
    | (true, st) => do
      let ph ← rootHeldU key root
      return (ph, st) := by
  simp only [stepU]
  cases st.lockLeafRoot root with
  | mk b st =>
    cases b with
    | false => rfl
    | true =>
      simp only [rootHeldU, bind_assoc]
      refine bindCongr _ fun k => ?_
      split
      · rfl
      split <;> rfl

theorem FRun.rootLocks (hF : FitsFine env G H) (h : FRun env H s.rest σ) {root : Word} {again : Proc} {held : Res Proc} (hG : G s (.run a))
    (hp : (s.proc a).inside = true) (hag : again.inside = true)
    (h0 : fstep env.fetch s.rest a = some (.ok (if s.st.rootLock = 0 then s.at a { s.st with rootLock := 1 } (s.proc a) .root
      else s.at a s.st again .none)))
    (h1 : fstep env.fetch (s.at a { s.st with rootLock := 1 } (s.proc a) .root) a = some (if s.st.root = root then held.map fun p =>
        s.at a { s.st with rootLock := 1 } p .none
      else .ok (s.at a { s.st with rootLock := 1 } again .rootBack)))
    {st : St} {p : Proc} (he : (match s.st.lockLeafRoot root with
      | (false, st) => .ok (again, st)
      | (true, st) => held.map fun p => (p, st)) = Except.ok (p, st)) : FRun env H (s.set a st p).rest σ := by
  unfold St.lockLeafRoot at he
  have h2 := h.access (a := a) (hF.same hG) h0
  by_cases hl : s.st.rootLock = 0
  · rw [if_pos hl] at he h2
    have h3 := fun f' => h2.access (f' := f') (hF.within (a := a) (by rw [Sys.at_proc]; exact hp) (by rw [Sys.at_fine]; simp) (by rw [Sys.at_fine]; simp))
    rw [h1] at h3
    by_cases hr : s.st.root = root
    · rw [if_pos hr] at he h3
      cases held with
      | error e => cases he
      | ok q =>
        cases he
        rw [← Sys.at_none]
        exact h3 _ rfl
    · rw [if_neg hr] at he h3
      cases he
      have h4 := (h3 _ rfl).access (f' := s.at a s.st again .none) (hF.within (a := a) (by rw [Sys.at_proc]; exact hag) (by rw [Sys.at_fine]; simp)
        (by rw [Sys.at_fine]; simp)) (by
          unfold fstep
          rw [Sys.at_fine, Sys.at_proc]
          simp only [Sys.at_set, Sys.at_st]
          congr 3
          show { s.st with rootLock := 1 - 1 } = s.st
          have := hl
          cases hst : s.st
          rw [hst] at this
          simp only at this
          subst this
          rfl)
      rw [← Sys.at_none]
      exact h4
  · rw [if_neg hl] at he h2
    cases he
    rw [← Sys.at_none]
    exact h2


theorem mapWrap {α β : Type} {r : Res α} {f : α → β} : (r >>= fun x => Except.ok (f x)) = r.map f := by
  cases r <;> rfl

theorem FRun.readsU (hF : FitsFine env G H) (h : FRun env H s.rest σ) (hG : G s (.run a)) {op : UpdOp} {ph : UPh} (hp : s.proc a = .upd (.body op))
    (hr : bodyU s.st op = .ok ph) : FRun env H (s.set a s.st (.upd ph)).rest σ := by
  rw [← Sys.at_none]
  have hm : ∀ (f : FSys) (P : Prog UPh), f = s.at a s.st (s.proc a) (f.fine a) → f.readU a P = (P.next s.st).after (fun x => s.at a s.st (.upd x) .none) (fun P' => s.at a s.st (s.proc a) (.readU P')) := by
    intro f P e
    unfold FSys.readU
    rw [e]
    simp only [Sys.at_st, Sys.at_set, Sys.at_proc]
    cases P.next s.st <;> first | rfl | (rename_i r; cases r <;> rfl)
  refine FRun.reads (s := s) (st := s.st) (p := s.proc a) (mk := .readU) (wrap := .upd) ?_ ?_ (bodyUP op) (f := s.rest) ?_ (hF.same hG) h
    (by rw [run_bodyUP]; exact hr)
  · intro P
    refine Eq.trans (b := some ((s.at a s.st (s.proc a) (.readU P)).readU a P)) ?_ (congrArg some (hm (s.at a s.st (s.proc a) (.readU P)) P (by rw [Sys.at_fine])))
    unfold fstep
    rw [Sys.at_fine]
  · intro P
    refine hF.within (by rw [Sys.at_proc, hp]; rfl) (by rw [Sys.at_fine]; simp) (by rw [Sys.at_fine]; simp)
  · refine Eq.trans (b := some (s.rest.readU a (bodyUP op))) ?_ (congrArg some (hm _ _ (Sys.at_rest s a)))
    unfold fstep
    simp only [Sys.rest, hp]

theorem FRun.readsD (hF : FitsFine env G H) (h : FRun env H s.rest σ) (hG : G s (.run a)) {cur : DelCur} {ph : DPh} (hp : s.proc a = .del (.body cur))
    (hr : bodyD s.st cur = .ok ph) : FRun env H (s.set a s.st (.del ph)).rest σ := by
  rw [← Sys.at_none]
  have hm : ∀ (f : FSys) (P : Prog DPh), f = s.at a s.st (s.proc a) (f.fine a) → f.readD a P = (P.next s.st).after (fun x => s.at a s.st (.del x) .none) (fun P' => s.at a s.st (s.proc a) (.readD P')) := by
    intro f P e
    unfold FSys.readD
    rw [e]
    simp only [Sys.at_st, Sys.at_set, Sys.at_proc]
    cases P.next s.st <;> first | rfl | (rename_i r; cases r <;> rfl)
  refine FRun.reads (s := s) (st := s.st) (p := s.proc a) (mk := .readD) (wrap := .del) ?_ ?_ (bodyDP cur) (f := s.rest) ?_ (hF.same hG) h
    (by rw [run_bodyDP]; exact hr)
  · intro P
    refine Eq.trans (b := some ((s.at a s.st (s.proc a) (.readD P)).readD a P)) ?_ (congrArg some (hm (s.at a s.st (s.proc a) (.readD P)) P (by rw [Sys.at_fine])))
    unfold fstep
    rw [Sys.at_fine]
  · intro P
    refine hF.within (by rw [Sys.at_proc, hp]; rfl) (by rw [Sys.at_fine]; simp) (by rw [Sys.at_fine]; simp)
  · refine Eq.trans (b := some (s.rest.readD a (bodyDP cur))) ?_ (congrArg some (hm _ _ (Sys.at_rest s a)))
    unfold fstep
    simp only [Sys.rest, hp]

/-- The prefixes are read while the locks are held. -/
theorem FRun.readsM (hF : FitsFine env G H) {st : St} {got : List (Nat × Int)} (hG : G s (.run a)) {cur : DelCur} {other : Word} {plen : Nat} {ph : DPh}
    (hp : s.proc a = .del (.lock3 cur other plen)) (hl : cur.op.req3.run s.st = (true, st))
    (h : FRun env H (s.at a st (s.proc a) (.merge got (mergeP cur other plen))) σ) (hr : mergeRead st cur other plen = .ok ph) :
    FRun env H (s.set a st (.del ph)).rest σ := by
  rw [← Sys.at_none]
  have hs : ∀ P, fstep env.fetch (s.at a st (s.proc a) (.merge got P)) a = some ((P.next st).after (fun x => s.at a st (.del x) .none) (fun P' => s.at a st (s.proc a) (.merge got P'))) := by
    intro P
    unfold fstep
    rw [Sys.at_fine]
    simp only [FSys.readM, Sys.at_st, Sys.at_set, Sys.at_proc]
    cases P.next st <;> first | rfl | (rename_i r; cases r <;> rfl)
  exact FRun.reads (s := s) (st := st) (p := s.proc a) (mk := .merge got) (wrap := .del) hs (fun P => hF.merge hG hp hl) (mergeP cur other plen) (hs _)
    (hF.merge hG hp hl) h (by rw [run_mergeP]; exact hr)

theorem stepD_lock3Run (st : St) (cur : DelCur) (other : Word) (plen : Nat) : stepD st (.lock3 cur other plen) = match cur.op.req3.run st with
    | (false, st) => .ok (.start cur.key, st)
    | (true, st) => do
      let ph ← mergeRead st cur other plen
      return (ph, st) := by
  show (match st.lockNodes3 cur.op.child cur.op.childGen cur.op.node cur.op.nodeGen cur.op.parent cur.op.parentGen with
    | (false, st) => _
    | (true, st) => _) = match st.lockNodes3 cur.op.child cur.op.childGen cur.op.node cur.op.nodeGen cur.op.parent cur.op.parentGen with
    | (false, st) => _
    | (true, st) => _
  split
  · rfl
  · simp only [mergeRead, bind_assoc, pure_bind]

/-- An uninterrupted step of `prepareUpdate`. -/
theorem FRun.stepsU (hF : FitsFine env G H) (h : FRun env H s.rest σ) (hG : G s (.run a)) {ph ph' : UPh} {st' : St} (hp : s.proc a = .upd ph)
    (hn : ∀ f op, ph ≠ .held f op) (hn2 : ∀ b tl, ph ≠ .tail b tl) (hr : stepU s.st ph = .ok (ph', st')) : FRun env H (s.set a st' (.upd ph')).rest σ := by
  have one : ∀ (hst : fstep env.fetch s.rest a = (exec env.fetch s (.run a)).map fun r => do
      let r ← r
      return ⟨r.1, s.rest.fine⟩), FRun env H (s.set a st' (.upd ph')).rest σ := by
    intro hst
    refine h.single hF (a := a) (ev := .none) hG hst ?_
    unfold exec
    simp only [hp]
    cases ph with
    | held f op => exact absurd rfl (hn _ _)
    | tail b tl => exact absurd rfl (hn2 _ _)
    | _ => simp only [hr]; rfl
  cases ph with
  | held f op => exact absurd rfl (hn _ _)
  | tail b tl => exact absurd rfl (hn2 _ _)
  | root key root =>
    rw [stepU_rootHeld] at hr
    refine h.rootLocks hF (root := root) (again := .upd (.start key)) (held := (rootHeldU key root).map .upd) hG (by rw [hp]; rfl) rfl ?_ ?_ ?_
    · unfold fstep
      simp only [Sys.rest, hp]
      split
      · refine congrArg (fun f => some (Except.ok f)) ?_
        exact congrArg (FSys.mk _) rfl
      · refine congrArg (fun f => some (Except.ok f)) ?_
        exact congrArg (FSys.mk _) rfl
    · unfold fstep
      rw [Sys.at_fine, Sys.at_proc, hp]
      simp only [Sys.at_set, Sys.at_st]
      split
      · cases rootHeldU key root <;> rfl
      · rfl
    · revert hr
      split
      · intro hr; cases hr; rfl
      · intro hr
        cases hh : rootHeldU key root with
        | error e => rw [hh] at hr; cases hr
        | ok q => rw [hh] at hr; cases hr; rfl
  | body op =>
    simp only [stepU] at hr
    cases hb : bodyU s.st op with
    | error e => rw [hb] at hr; cases hr
    | ok q =>
      rw [hb] at hr
      cases hr
      exact h.readsU hF hG hp hb
  | lock found op =>
    have hl := h.locks hF (a := a) (again := .upd (.start op.key)) (won := .upd (.held found op)) (wonAt := fun _ => .none) (req := op.req)
      (by rw [hp]; rfl) rfl (by unfold fstep; simp only [Sys.rest, hp]) (by intro st todo got _; unfold fstep; rw [Sys.at_fine, Sys.at_proc, hp]) (hF.same hG)
    have e : stepU s.st (.lock found op) = match op.req.run s.st with
        | (true, st) => .ok (.held found op, st)
        | (false, st) => .ok (.start op.key, st) := rfl
    rw [e] at hr
    cases hq : op.req.run s.st with
    | mk b st =>
      rw [hq] at hl hr
      rw [← Sys.at_none]
      cases b with
      | true =>
        cases hr
        obtain ⟨_, h1⟩ := hl.1 rfl
        exact h1
      | false =>
        cases hr
        exact hl.2 rfl
  | start key => exact one (by unfold fstep; simp only [Sys.rest, hp])
  | gen op => exact one (by unfold fstep; simp only [Sys.rest, hp])
  | ptr op => exact one (by unfold fstep; simp only [Sys.rest, hp])
  | par op => exact one (by unfold fstep; simp only [Sys.rest, hp])

/-- An uninterrupted step of `PrepareDelete`. -/
theorem FRun.stepsD (hF : FitsFine env G H) (h : FRun env H s.rest σ) (hG : G s (.run a)) {ph ph' : DPh} {st' : St} (hp : s.proc a = .del ph)
    (hn : ∀ cur, ph ≠ .held cur) (hn1 : ∀ key, ph ≠ .miss key) (hn2 : ∀ b tl, ph ≠ .tail b tl) (hr : stepD s.st ph = .ok (ph', st')) :
    FRun env H (s.set a st' (.del ph')).rest σ := by
  have one : ∀ (hst : fstep env.fetch s.rest a = (exec env.fetch s (.run a)).map fun r => do
      let r ← r
      return ⟨r.1, s.rest.fine⟩), FRun env H (s.set a st' (.del ph')).rest σ := by
    intro hst
    refine h.single hF (a := a) (ev := .none) hG hst ?_
    unfold exec
    simp only [hp]
    cases ph with
    | held cur => exact absurd rfl (hn _)
    | miss key => exact absurd rfl (hn1 _)
    | tail b tl => exact absurd rfl (hn2 _ _)
    | _ => simp only [hr]; rfl
  cases ph with
  | held cur => exact absurd rfl (hn _)
  | miss key => exact absurd rfl (hn1 _)
  | tail b tl => exact absurd rfl (hn2 _ _)
  | root key root =>
    simp only [stepD] at hr
    refine h.rootLocks hF (root := root) (again := .del (.start key)) (held := .ok (.del (rootHeldD key root))) hG (by rw [hp]; rfl) rfl ?_ ?_ ?_
    · unfold fstep
      simp only [Sys.rest, hp]
      split
      · refine congrArg (fun f => some (Except.ok f)) ?_
        exact congrArg (FSys.mk _) rfl
      · refine congrArg (fun f => some (Except.ok f)) ?_
        exact congrArg (FSys.mk _) rfl
    · unfold fstep
      rw [Sys.at_fine, Sys.at_proc, hp]
      simp only [Sys.at_set, Sys.at_st]
      split <;> rfl
    · cases hq : s.st.lockLeafRoot root with
      | mk b st =>
        rw [hq] at hr
        cases b <;> (cases hr; rfl)
  | body cur =>
    simp only [stepD] at hr
    cases hb : bodyD s.st cur with
    | error e => rw [hb] at hr; cases hr
    | ok q =>
      rw [hb] at hr
      cases hr
      exact h.readsD hF hG hp hb
  | lock cur =>
    have hl := h.locks hF (a := a) (again := .del (.start cur.key)) (won := .del (.held cur)) (wonAt := fun _ => .none) (req := cur.op.req)
      (by rw [hp]; rfl) rfl (by unfold fstep; simp only [Sys.rest, hp]) (by intro st todo got _; unfold fstep; rw [Sys.at_fine, Sys.at_proc, hp]) (hF.same hG)
    have e : stepD s.st (.lock cur) = match cur.op.req.run s.st with
        | (true, st) => .ok (.held cur, st)
        | (false, st) => .ok (.start cur.key, st) := rfl
    rw [e] at hr
    cases hq : cur.op.req.run s.st with
    | mk b st =>
      rw [hq] at hl hr
      rw [← Sys.at_none]
      cases b with
      | true =>
        cases hr
        obtain ⟨_, h1⟩ := hl.1 rfl
        exact h1
      | false =>
        cases hr
        exact hl.2 rfl
  | lock3 cur other plen =>
    have hl := h.locks hF (a := a) (again := .del (.start cur.key)) (won := s.proc a) (wonAt := fun got => .merge got (mergeP cur other plen))
      (req := cur.op.req3) (by rw [hp]; rfl) rfl (by unfold fstep; simp only [Sys.rest, hp])
      (by intro st todo got _; unfold fstep; rw [Sys.at_fine, Sys.at_proc, hp]) (hF.same hG)
    rw [stepD_lock3Run] at hr
    cases hq : cur.op.req3.run s.st with
    | mk b st =>
      rw [hq] at hl hr
      cases b with
      | true =>
        simp only at hr
        cases hm : mergeRead st cur other plen with
        | error e => rw [hm] at hr; cases hr
        | ok q =>
          rw [hm] at hr
          cases hr
          obtain ⟨_, h1⟩ := hl.1 rfl
          exact FRun.readsM hF hG hp hq h1 hm
      | false =>
        cases hr
        rw [← Sys.at_none]
        exact hl.2 rfl
  | start key => exact one (by unfold fstep; simp only [Sys.rest, hp])
  | gen cur => exact one (by unfold fstep; simp only [Sys.rest, hp])
  | ptr cur => exact one (by unfold fstep; simp only [Sys.rest, hp])
  | par cur => exact one (by unfold fstep; simp only [Sys.rest, hp])
  | other cur p plen => exact one (by unfold fstep; simp only [Sys.rest, hp])
  | cgen cur p o plen => exact one (by unfold fstep; simp only [Sys.rest, hp])
  | cptr cur p o plen => exact one (by unfold fstep; simp only [Sys.rest, hp])


/-- `Finalize` without an interruption between building and publishing. -/
theorem FRun.publishes (hF : FitsFine env G H) (h : FRun env H s.rest σ) {v : Word} {s' : Sys} {ev : Ev} (hal : env.Allowed s (.publish a v))
    (hG : G s (.publish a v)) (he : exec env.fetch s (.publish a v) = some (.ok (s', ev))) : FRun env H s'.rest (σ.next ev) := by
  have two : ∀ {s1 : Sys}, exec env.fetch s (.build a v) = some (.ok (s1, .none)) → exec env.fetch s1 (.commit a) = some (.ok (s', ev)) →
      FRun env H s'.rest (σ.next ev) := by
    intro s1 hb hc
    have h1 : FRun env H s1.rest (σ.next .none) := .step (act := .build a v) h hal (hF.build hG) (by
      simp only [fexec, FAct.act, Sys.rest, hb]; rfl)
    exact .step (act := .commit a) h1 trivial (hF.commit hG hb) (by
      simp only [fexec, FAct.act, Sys.rest, hc]; rfl)
  unfold exec at he
  cases hp : s.proc a with
  | upd ph =>
    cases ph with
    | held found op =>
      simp only [hp] at he
      rw [publishU_eq] at he
      cases hb : buildU s.st a op (env.fetch op.value) (decide (env.fetch op.value = op.key)) v with
      | error e => rw [hb] at he; cases he
      | ok r =>
        obtain ⟨cm, st⟩ := r
        rw [hb] at he
        cases he
        refine two (s1 := s.set a st (.updB op v cm)) ?_ ?_
        · simp only [exec, hp, hb]; rfl
        · (simp only [exec, Sys.set_self, Sys.set_st, Sys.set_set]; rfl)
    | _ => simp only [hp] at he; cases he
  | del ph =>
    cases ph with
    | held cur =>
      simp only [hp] at he
      by_cases hk : cur.op.kind = .notFound
      · have e : publishD s.st a cur.op = .ok (false, {}, s.st) := by unfold publishD; rw [hk]; rfl
        rw [e] at he
        cases he
        refine .step (act := .quit a) (ev := .none) h trivial (hF.void hp hk) ?_
        simp only [fexec, FAct.act, exec, Sys.rest, hp, DelOp.abortUnl, hk]
        rfl
      · rw [publishD_eq _ _ _ hk] at he
        cases hb : buildD s.st a cur.op with
        | error e => rw [hb] at he; cases he
        | ok r =>
          obtain ⟨cm, st⟩ := r
          rw [hb] at he
          cases he
          refine two (s1 := s.set a st (.delB cur cm)) ?_ ?_
          · simp only [exec, hp, hb, if_neg hk]; rfl
          · (simp only [exec, Sys.set_self, Sys.set_st, Sys.set_set]; rfl)
    | _ => simp only [hp] at he; cases he
  | _ => simp only [hp] at he; cases he

theorem Sys.set_same (s : Sys) (a : Nat) {p : Proc} (h : s.proc a = p) : s.set a s.st p = s := by
  subst h
  unfold Sys.set
  rw [upd_self]

/-- An execution with uninterrupted steps is an execution in which every access is a step. -/
theorem Run.fine (hF : FitsFine env G H) (hns : ∀ s a r, G s (.slip a) → exec env.fetch s (.slip a) ≠ some (.ok r)) {s : Sys} {σ : Spec} (h : Run env G s σ) : FRun env H s.rest σ := by
  induction h with
  | init n => exact .init n
  | reload h hs ih => exact .reload ih hs
  | @step s σ act s' ev h hal hG he ih =>
    cases act with
    | begin b c => exact ih.sameStep hF (act := .begin b c) hal hG (by simp) he
    | arm b => exact ih.sameStep hF (act := .arm b) hal hG (by simp) he
    | build b v => exact ih.sameStep hF (act := .build b v) hal hG (by simp) he
    | commit b => exact ih.sameStep hF (act := .commit b) hal hG (by simp) he
    | unlock b => exact ih.sameStep hF (act := .unlock b) hal hG (by simp) he
    | quit b => exact ih.sameStep hF (act := .quit b) hal hG (by simp) he
    | finish b => exact ih.sameStep hF (act := .finish b) hal hG (by simp) he
    | flush b => exact ih.sameStep hF (act := .flush b) hal hG (by simp) he
    | block => exact ih.sameStep hF (act := .block) hal hG (by simp) he
    | slip b => exact absurd he (hns s b _ hG)
    | publish b v => exact ih.publishes hF hal hG he
    | tail b =>
      simp only [exec] at he
      split at he
      · rename_i c tl hp
        injection he with he
        obtain ⟨st', ht, he⟩ := bind_ok he
        cases he
        refine FRun.tails hF (d := false) (b := c) ?_ ht
        rw [tailProc, if_neg (by simp), Sys.set_same s b hp]
        exact ih
      · rename_i c tl hp
        injection he with he
        obtain ⟨st', ht, he⟩ := bind_ok he
        cases he
        refine FRun.tails hF (d := true) (b := c) ?_ ht
        rw [tailProc, if_pos rfl, Sys.set_same s b hp]
        exact ih
      · cases he
    | abort b =>
      have he' := he
      simp only [exec] at he
      split at he
      · rename_i hp
        injection he with he
        obtain ⟨st', ht, he⟩ := bind_ok he
        cases he
        rw [abortU_tail] at ht
        refine FRun.tails hF (d := false) (b := false) (st := s.st) ?_ ht
        refine .step (act := .quit b) (ev := .none) ih trivial (hF.quit hG he') ?_
        simp only [fexec, FAct.act, exec, Sys.rest, hp, tailProc]
        rfl
      · rename_i hp
        injection he with he
        obtain ⟨st', ht, he⟩ := bind_ok he
        cases he
        rw [abortD_tail] at ht
        refine FRun.tails hF (d := true) (b := false) (st := s.st) ?_ ht
        refine .step (act := .quit b) (ev := .none) ih trivial (hF.quit hG he') ?_
        simp only [fexec, FAct.act, exec, Sys.rest, hp, tailProc]
        rfl
      · cases he
    | run b =>
      have he' := he
      simp only [exec] at he
      cases hp : s.proc b with
      | upd ph =>
        rw [hp] at he
        have hx : (∃ f op, ph = .held f op) ∨ (∃ c tl, ph = .tail c tl) ∨ (∀ f op, ph ≠ .held f op) ∧ (∀ c tl, ph ≠ .tail c tl) := by
          cases ph <;> simp
        rcases hx with ⟨f, op, rfl⟩ | ⟨c, tl, rfl⟩ | ⟨h1, h2⟩
        · cases he
        · cases he
        · have he2 : (do
              let (ph, st) ← Radix.stepU s.st ph
              return (s.set b st (.upd ph), Ev.none)) = Except.ok (s', ev) := by
            cases ph <;> first | exact absurd rfl (h1 _ _) | exact absurd rfl (h2 _ _) | (injection he with he)
          obtain ⟨⟨ph', st'⟩, hs, he2⟩ := bind_ok he2
          cases he2
          exact ih.stepsU hF hG hp h1 h2 hs
      | del ph =>
        rw [hp] at he
        have hx : (∃ cur, ph = .held cur) ∨ (∃ k, ph = .miss k) ∨ (∃ c tl, ph = .tail c tl) ∨
            (∀ cur, ph ≠ .held cur) ∧ (∀ k, ph ≠ .miss k) ∧ (∀ c tl, ph ≠ .tail c tl) := by
          cases ph <;> simp
        rcases hx with ⟨cur, rfl⟩ | ⟨k, rfl⟩ | ⟨c, tl, rfl⟩ | ⟨h1, h3, h2⟩
        · cases he
        · cases he
        · cases he
        · have he2 : (do
              let (ph, st) ← Radix.stepD s.st ph
              return (s.set b st (.del ph), Ev.none)) = Except.ok (s', ev) := by
            cases ph <;> first | exact absurd rfl (h1 _) | exact absurd rfl (h3 _) | exact absurd rfl (h2 _ _) | (injection he with he)
          obtain ⟨⟨ph', st'⟩, hs, he2⟩ := bind_ok he2
          cases he2
          exact ih.stepsD hF hG hp h1 h3 h2 hs
      | rd ph =>
        have hev : ev = .none := by
          rw [hp] at he
          cases ph with
          | done _ _ => cases he
          | _ =>
            injection he with he
            obtain ⟨_, _, he⟩ := bind_ok he
            cases he
            rfl
        subst hev
        exact ih.single hF hG (by unfold fstep; simp only [Sys.rest, hp]) he'
      | _ => rw [hp] at he; cases he


/-- Without restrictions. -/
theorem fits_any : FitsFine env G (fun _ _ => True) :=
  ⟨fun _ => trivial, fun _ _ _ => trivial, fun _ _ _ => trivial, fun _ => trivial, fun _ _ => trivial, fun _ _ => trivial, fun _ _ => trivial, trivial, trivial⟩

/-- As `Calm`; and the node of a delete about to take three locks is not at address 0 (this is so in every calm execution). -/
def CalmNodes (s : Sys) (act : Act) : Prop := Calm s act ∧ ∀ a cur other plen, s.proc a = .del (.lock3 cur other plen) → cur.op.node ≠ 0

theorem Run.calmNodes (hc : ∀ s act, G s act → Calm s act) (h : Run env G s σ) : Run env (fun s act => CalmNodes s act ∧ G s act) s σ := by
  induction h with
  | init n => exact .init n
  | reload _ hs ih => exact .reload ih hs
  | step h0 hall hg he ih =>
    refine .step ih hall ⟨⟨hc _ _ hg, ?_⟩, hg⟩ he
    intro a cur other plen hp
    obtain ⟨t, seen, hI⟩ := (h0.mono hc).inv
    have hP := hI.proc a
    rw [hp] at hP
    obtain ⟨_, _, _, _, _, q, pfx, k, k2, lk, lv, pfx2, big2, hw4, _⟩ := hP
    obtain ⟨hw, n, pfx1, big1, ch1, hr⟩ := hI.seenRef (a := a) (by rw [hp]; rfl) hw4.ref
    have hn : cur.op.node = n := by rw [← hr.fields.addr]; exact hw4.node
    obtain ⟨ch', _, e2, _⟩ := hw.view hr.inS fun _ h => h
    have := (e2 0).inb.1.1
    omega

theorem abortD_panics {st : St} {op : DelOp} (hk : op.kind = .replaceNodeWithNode) (h0 : op.parent = 0) (h1 : ¬ sameLock 0 op.node)
    (h2 : ¬ sameLock 0 op.child) (hg : st.gen 0 % 2 = 0) {st' : St} : abortD st a op ≠ .ok st' := by
  intro h
  unfold abortD at h
  rw [hk] at h
  obtain ⟨st1, h, _⟩ := bind_ok h
  unfold St.unlockNodes3 at h
  have hc : op.child ≠ 0 := by
    intro e
    rw [e] at h2
    exact h2 ⟨rfl, rfl⟩
  rw [if_neg hc, h0] at h
  obtain ⟨st2, h3, h⟩ := bind_ok h
  have g2 : st2.gen 0 = st.gen 0 := by
    unfold St.unlockNode at h3
    split at h3
    · cases h3
      rw [gen_setGen, if_neg fun e => h2 (sameLock_comm.1 e)]
    · cases h3
  have h : (if lockDiffer op.node op.child then st2.unlockNode op.node else pure st2) >>= (fun st =>
      if (lockDiffer 0 op.child && lockDiffer 0 op.node) = true then st.unlockNode 0 else pure st) = .ok st1 := by
    rw [← h]
    split <;> rfl
  obtain ⟨st3, h4, h⟩ := bind_ok h
  have g3 : st3.gen 0 = st.gen 0 := by
    split at h4
    · unfold St.unlockNode at h4
      split at h4
      · cases h4
        rw [gen_setGen, if_neg fun e => h1 (sameLock_comm.1 e), g2]
      · cases h4
    · cases h4
      exact g2
  rw [if_pos (by simp [(lockDiffer_iff _ _).2 h1, (lockDiffer_iff _ _).2 h2])] at h
  unfold St.unlockNode at h
  rw [if_neg (by omega)] at h
  cases h

/-- The restriction of C45 allows the accesses of the steps that the restriction of C09 allows. -/
theorem fits_calm (hc : ∀ s act, G s act → CalmNodes s act) : FitsFine env G FCalm where
  same := by
    intro s act hG
    have hG := (hc _ _ hG).1
    cases act with
    | step a =>
      simp only [FCalm]
      split
      · rintro ⟨got, P, h⟩
        cases h
      · exact hG
    | _ => exact hG
  within := by
    intro f a hp hn hm
    simp only [FCalm]
    split
    · rintro ⟨got, P, h⟩
      exact absurd h (hm got P)
    · simp only [Calm]
      split
      · rename_i hq; rw [hq] at hp; cases hp
      · rename_i hq; rw [hq] at hp; cases hp
      · rename_i hx _ _ _ _ hq; exact absurd hq (hx _ _ _)
      · trivial
  merge := by
    intro s a cur other plen st got P hG hp hl
    have hN := (hc _ _ hG).2 a _ _ _ hp
    have hG := (hc _ _ hG).1
    simp only [FCalm, Sys.at_proc, Sys.at_st, hp]
    rintro -
    simp only [Calm, hp] at hG
    have hG := hG (by simp only [LockReq.run, DelOp.req3] at hl; rw [hl])
    cases hpl : lockPlan cur.op.req3 with
    | none => rw [LockReq.run_none hpl] at hl; cases hl
    | some plan =>
      by_cases hall : ∀ x ∈ plan, s.st.gen x.1 = x.2
      · obtain ⟨L, e1, e2⟩ := LockReq.run_win hpl hall
        rw [e1] at hl
        cases hl
        have hnodes := (lockPlan_facts hpl).2.2.1
        refine ⟨?_, fun hne => ?_⟩
        · rw [e2, if_pos (hnodes _ (by simp only [DelOp.req3, LockReq.nodes, if_neg hN]; split <;> simp)), hG.1]
        · rw [e2, if_pos (hnodes _ (by simp only [DelOp.req3, LockReq.nodes, if_neg hne]; simp)), hG.2 hne]
      · have : ∃ x ∈ plan, s.st.gen x.1 ≠ x.2 := by
          refine Decidable.byContradiction fun hn => hall fun x hx => ?_
          exact Decidable.byContradiction fun h => hn ⟨x, hx, h⟩
        rw [LockReq.run_lose hpl this] at hl
        cases hl
  build := fun _ => trivial
  commit := by
    intro s s' a v hG he
    have hG := (hc _ _ hG).1
    simp only [FCalm, FAct.act, Calm, Sys.rest]
    split
    · rename_i cur cm hp
      intro hk hl
      simp only [exec] at he
      cases hq : s.proc a with
      | del ph =>
        cases ph with
        | held cur' =>
          simp only [hq] at he
          split at he
          · cases he
          · injection he with he
            obtain ⟨⟨cm', st'⟩, hb, he⟩ := bind_ok he
            cases he
            rw [Sys.set_self] at hp
            cases hp
            have hb' := hb
            unfold buildD at hb'
            rw [hk] at hb'
            cases hb'
            simp only [Calm, hq] at hG
            obtain ⟨p, h1, h2, h3⟩ := hG hk hl
            refine ⟨p, h1, h2, ?_⟩
            rintro ⟨b, hb'⟩
            by_cases hba : b = a
            · subst hba
              rw [Sys.set_self] at hb'
              simp [Proc.copied, Proc.cm?, Tail.seg] at hb'
            · rw [Sys.set_other _ _ _ _ hba] at hb'
              exact h3 ⟨b, hb'⟩
        | _ => simp only [hq] at he; cases he
      | upd ph =>
        cases ph with
        | held f op =>
          simp only [hq] at he
          injection he with he
          obtain ⟨⟨cm', st'⟩, hb, he⟩ := bind_ok he
          cases he
          rw [Sys.set_self] at hp
          cases hp
        | _ => simp only [hq] at he; cases he
      | _ => simp only [hq] at he; cases he
    · trivial
  void := by
    intro s a cur hp hk
    simp only [FCalm, FAct.act, Calm, Sys.rest, hp, hk]
    intro h; cases h
  quit := by
    intro s a r hG he
    have hG := (hc _ _ hG).1
    simp only [FCalm, FAct.act, Calm, Sys.rest] at hG ⊢
    split
    · rename_i cur hp
      simp only [hp] at hG
      intro hk h0
      rcases hG hk h0 with h | h | h
      · exact .inl h
      · exact .inr h
      · by_cases h1 : sameLock 0 cur.op.node
        · exact .inl h1
        by_cases h2 : sameLock 0 cur.op.child
        · exact .inr h2
        simp only [exec, hp] at he
        injection he with he
        obtain ⟨st', ht, _⟩ := bind_ok he
        exact absurd ht (abortD_panics hk h0 h1 h2 h)
    · trivial
  unlock := trivial
  tail := by intro f a; trivial

end
end Radix
