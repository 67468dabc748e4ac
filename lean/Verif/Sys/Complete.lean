import Verif.Sys.Grow
import Verif.Properties.Concurrent
/-!
# Operations one after the other, from beginning to end
-/
set_option autoImplicit false
namespace Radix
open T

/-- All keys have at most nine bytes. -/
def Env.Short (env : Env) : Prop := ∀ k, env.keys k → k.length ≤ 9

section
variable {env : Env} {s : Sys} {σ : Spec} {t : T} {seen : Nat → T → Prop}

/-- With short keys no node has 258 slots. -/
theorem short_node (hs : env.Short) (hw : t.WF env.P []) {q : Key} {n : Nat} {pfx : List UInt8} {big : Bool} {ch : UInt8 → T}
    (h : At t q (.node n pfx big ch)) : cnt big ch + prefixSlots pfx.length < 258 := by
  have hwf := h.wf hw
  obtain ⟨_, k, v, c, hP, hpre⟩ := hwf.1
  have h1 := hs k hP.1
  have h2 := hpre.length_le
  simp only [List.length_append, List.length_cons, List.length_nil] at h2
  have h3 : cnt big ch ≤ 256 := by
    unfold cnt
    split
    · exact Nat.le_refl _
    · exact cntOf_le _
  have h4 : prefixSlots pfx.length ≤ 1 := by
    unfold prefixSlots
    rw [if_neg (by omega)]
    omega
  omega

theorem short_upd (hs : env.Short) (hI : Inv env s σ t seen) {a : Nat} {f : Bool} {op : UpdOp} (hp : s.proc a = .upd (.held f op))
    (hk : op.kind.isRoot = false) : op.count + op.prefixSlots < 258 := by
  have hP := hI.proc a
  rw [hp] at hP
  obtain ⟨_, _, _, ⟨h2, _⟩ | ⟨_, q, pfx, big, ch, h3, _⟩⟩ := hP
  · rw [h2] at hk; cases hk
  · rw [h3.count, h3.slots]
    exact short_node hs hI.mem.core.wf h3.at'

theorem short_del (hs : env.Short) (hI : Inv env s σ t seen) {a : Nat} {cur : DelCur} (hp : s.proc a = .del (.held cur))
    (hk : cur.op.kind ≠ .deleteRoot) (hk' : cur.op.kind ≠ .deleteLeaf256) : cur.op.count + cur.op.prefixSlots < 258 := by
  have hP := hI.proc a
  rw [hp] at hP
  obtain ⟨_, ⟨h2, _⟩ | ⟨_, q, pfx, ch, h3, _⟩ | ⟨_, q, pfx, k, k2, lk, lv, pfx2, big2, kids, h3, _, h4, _⟩ | ⟨h2, _⟩⟩ := hP
  · exact absurd h2 hk
  · have h5 := short_node hs hI.mem.core.wf h3.at'
    rw [h3.slots]
    rcases h3.kind with ⟨_, k, lk, lv, _, _, _, h6, _⟩ | ⟨_, k, k2, lk, lv, lk2, lv2, h6, h7, _, h8, _⟩
    · rw [h6]; exact h5
    · rw [h8]
      have : cnt false ch = 2 := by
        subst h6
        simp [cnt, cntOf_ch2 (ta := .leaf lk lv) (tb := .leaf lk2 lv2) rfl rfl h7]
      rw [this] at h5; exact h5
  · have h5 := h3.at'.child k2
    have h6 : ch2 k (.leaf lk lv) k2 (.node cur.op.child pfx2 big2 kids) k2 = .node cur.op.child pfx2 big2 kids := by
      simp [ch2]
    rw [h6] at h5
    rw [h3.count, h4]
    exact short_node hs hI.mem.core.wf h5
  · exact absurd h2 hk'
end

/-! ## One operation -/

theorem run_quiet {fetch : Word → Key} {s s' : Sys} {a : Nat} {ev : Ev} (h : exec fetch s (.run a) = some (.ok (s', ev))) : Quiet s.st s'.st := by
  simp only [exec] at h
  split at h
  all_goals first
    | (cases h; done)
    | (injection h with h
       obtain ⟨r, hr, h⟩ := bind_ok h
       cases h
       first | exact stepU_quiet hr | exact stepD_quiet hr | exact .refl _)

/-- The allocators and the memory they have taken are unchanged. -/
def KeepAl (st st' : St) : Prop := KeepBa st st' ∧ st'.allocs = st.allocs

theorem KeepAl.refl (st : St) : KeepAl st st := ⟨.refl st, rfl⟩
theorem KeepAl.trans {a b c : St} (h : KeepAl a b) (h' : KeepAl b c) : KeepAl a c := ⟨h.1.trans h'.1, h'.2.trans h.2⟩
theorem Quiet.al {st st' : St} (h : Quiet st st') : KeepAl st st' := ⟨h.ba, h.allocs⟩

theorem not_delPub {s : Sys} {act : Act} (h : ∀ a v, act ≠ .publish a v ∧ act ≠ .commit a) : ¬ s.DelPub act := by
  rintro (⟨a, v, _, e, _⟩ | ⟨a, _, _, e, _⟩)
  · exact (h a v).1 e
  · exact (h a 0).2 e

section
variable {env : Env} {G : Sys → Act → Prop} {R : Sys → Spec → Prop}
  (hR : ∀ {s σ act s' ev}, R s σ → env.Allowed s act → G s act → exec env.fetch s act = some (.ok (s', ev)) → R s' (σ.next ev))
  (hG : ∀ s act, Serial s act → ¬ s.DelPub act → G s act)
  (hC : ∀ s σ, R s σ → Run env Calm s σ)
include hR hG hC

/-- The beginning of an operation. -/
theorem begin_alone {s : Sys} {σ : Spec} (h : R s σ) (hidle : ∀ b, s.proc b = .idle) {a : Nat} (ha : a < s.st.nalloc) {c : Call}
    (hc : (∀ k, c ≠ .lookup k) ∧ c ≠ .walk) (hall : env.Allowed s (.begin a c)) :
    ∃ s1, (∀ l, execs env.fetch s ([.begin a c, .arm a] ++ l) = execs env.fetch s1 l) ∧ R s1 (σ.next (.begun a c)) ∧ SInv s1 ∧
      s1.proc a = c.start ∧ (∀ b, b ≠ a → s1.proc b = .idle) ∧ KeepAl s.st s1.st := by
  have hser : Serial s (.begin a c) := by
    cases c with
    | lookup k => exact absurd rfl (hc.1 k)
    | walk => exact absurd rfl hc.2
    | _ => exact hidle
  have e1 : exec env.fetch s (.begin a c) = some (.ok (s.set a s.st (.arm s.st.epoch c), .none)) := by
    simp [exec, hidle a, ha]
  have h1 := hR h hall (hG _ _ hser (not_delPub (by simp))) e1
  obtain ⟨_, S1⟩ := (hC _ _ h).stepOne (SInv.idle hidle) hall hser.oneWriter e1
  have e2 : exec env.fetch (s.set a s.st (.arm s.st.epoch c)) (.arm a) =
      some (.ok ((s.set a s.st (.arm s.st.epoch c)).set a { s.st with resv := upd s.st.resv a s.st.epoch } c.start, .begun a c)) := by
    simp [exec, Sys.set]
  have h2 := hR h1 (act := .arm a) trivial (hG _ _ trivial (not_delPub (by simp))) e2
  obtain ⟨_, S2⟩ := (hC _ _ h1).stepOne S1 (act := .arm a) trivial trivial e2
  refine ⟨_, fun l => ?_, h2, S2, by simp [Sys.set], fun b hb => ?_, ⟨⟨rfl, rfl, rfl⟩, rfl⟩⟩
  · rw [List.cons_append, List.cons_append, List.nil_append, execs_one e1, execs_one e2]
  · simp [Sys.set, upd_of_ne _ _ hb, hidle b]

/-- `PrepareUpdate` without competition. -/
theorem prepareU_alone {a : Nat} {key : Key} : ∀ (m : Nat) {s : Sys} {σ : Spec} {ph : UPh}, R s σ → SInv s →
    s.proc a = .upd ph → ph.key? = some key → leftU ph ≤ m →
    ∃ n s', execs env.fetch s (List.replicate n (.run a)) = some s' ∧ R s' σ ∧ SInv s' ∧
      (∃ found op, s'.proc a = .upd (.held found op) ∧ op.key = key) ∧ (∀ b, b ≠ a → s'.proc b = s.proc b) ∧ KeepAl s.st s'.st := by
  intro m
  induction m with
  | zero =>
    intro s σ ph h hS hp hk hm
    cases ph with
    | held f op => exact ⟨0, s, rfl, h, hS, ⟨f, op, hp, by simpa [UPh.key?] using hk⟩, fun _ _ => rfl, .refl _⟩
    | tail r tl => cases hk
    | _ => simp [leftU] at hm
  | succ m ih =>
    intro s σ ph h hS hp hk hm
    by_cases hh : ∃ f op, ph = .held f op
    · obtain ⟨f, op, rfl⟩ := hh
      exact ⟨0, s, rfl, h, hS, ⟨f, op, hp, by simpa [UPh.key?] using hk⟩, fun _ _ => rfl, .refl _⟩
    · obtain ⟨ph', st', he, _, g2, g3, g4, g5⟩ := (hC _ _ h).stepU hS hp (fun f op e => hh ⟨f, op, e⟩) (by rintro r tl rfl; cases hk)
      have hba : KeepAl s.st st' := (run_quiet he).al
      have g1 : R (s.set a st' (.upd ph')) σ := hR h (act := .run a) trivial (hG _ _ trivial (not_delPub (by simp))) he
      obtain ⟨n, s', i2, i3, i4, i5, i6, i7⟩ := ih g1 g2 (ph := ph') (by simp [Sys.set]) (g4.trans hk) (by omega)
      refine ⟨n + 1, s', by rw [List.replicate_succ, execs_one he]; exact i2, i3, i4, i5, ?_, hba.trans i7⟩
      intro b hb
      rw [i6 b hb]
      simp [Sys.set, upd_of_ne _ _ hb]

/-- `PrepareDelete` without competition. -/
theorem prepareD_alone {a : Nat} {key : Key} : ∀ (m : Nat) {s : Sys} {σ : Spec} {ph : DPh}, R s σ → SInv s →
    s.proc a = .del ph → ph.key? = some key → leftD ph ≤ m →
    ∃ n s', execs env.fetch s (List.replicate n (.run a)) = some s' ∧ R s' σ ∧ SInv s' ∧
      ((∃ cur, s'.proc a = .del (.held cur) ∧ cur.key = key) ∨ s'.proc a = .del (.miss key)) ∧
      (∀ b, b ≠ a → s'.proc b = s.proc b) ∧ KeepAl s.st s'.st := by
  intro m
  have done : ∀ {s : Sys} {σ : Spec} {ph : DPh}, R s σ → SInv s → s.proc a = .del ph → ph.key? = some key →
      ((∃ cur, ph = .held cur) ∨ ∃ k, ph = .miss k) →
      ∃ n s', execs env.fetch s (List.replicate n (.run a)) = some s' ∧ R s' σ ∧ SInv s' ∧
      ((∃ cur, s'.proc a = .del (.held cur) ∧ cur.key = key) ∨ s'.proc a = .del (.miss key)) ∧
      (∀ b, b ≠ a → s'.proc b = s.proc b) ∧ KeepAl s.st s'.st := by
    rintro s σ ph h hS hp hk (⟨cur, rfl⟩ | ⟨k, rfl⟩)
    · exact ⟨0, s, rfl, h, hS, .inl ⟨cur, hp, by simpa [DPh.key?] using hk⟩, fun _ _ => rfl, .refl _⟩
    · refine ⟨0, s, rfl, h, hS, .inr ?_, fun _ _ => rfl, .refl _⟩
      simp only [DPh.key?, Option.some.injEq] at hk
      rw [hp, hk]
  induction m with
  | zero =>
    intro s σ ph h hS hp hk hm
    cases ph with
    | held cur => exact done h hS hp hk (.inl ⟨_, rfl⟩)
    | miss k => exact done h hS hp hk (.inr ⟨_, rfl⟩)
    | tail r tl => cases hk
    | _ => simp [leftD] at hm
  | succ m ih =>
    intro s σ ph h hS hp hk hm
    by_cases hh : (∃ cur, ph = .held cur) ∨ ∃ k, ph = .miss k
    · exact done h hS hp hk hh
    · obtain ⟨ph', st', he, _, g2, g3, g4, g5⟩ := (hC _ _ h).stepD hS hp (fun cur e => hh (.inl ⟨cur, e⟩)) (by rintro r tl rfl; cases hk)
        (fun k e => hh (.inr ⟨k, e⟩))
      have hba : KeepAl s.st st' := (run_quiet he).al
      have g1 : R (s.set a st' (.del ph')) σ := hR h (act := .run a) trivial (hG _ _ trivial (not_delPub (by simp))) he
      obtain ⟨n, s', i2, i3, i4, i5, i6, i7⟩ := ih g1 g2 (ph := ph') (by simp [Sys.set]) (g4.trans hk) (by omega)
      refine ⟨n + 1, s', by rw [List.replicate_succ, execs_one he]; exact i2, i3, i4, i5, ?_, hba.trans i7⟩
      intro b hb
      rw [i6 b hb]
      simp [Sys.set, upd_of_ne _ _ hb]

/-- The rest of `Finalize`. -/
theorem tail_alone {s : Sys} {σ : Spec} (h : R s σ) {a : Nat} {b : Bool} {tl : Tail}
    (hp : s.proc a = .upd (.tail b tl) ∨ s.proc a = .del (.tail b tl)) (ho : ∀ b, b ≠ a → s.proc b = .idle) :
    (∃ n, tl.free = some (n, 258) ∧ exec env.fetch s (.tail a) = some (.error .index)) ∨
    ∃ s', exec env.fetch s (.tail a) = some (.ok (s', .none)) ∧ R s' σ ∧ (∀ b, s'.proc b = .idle) ∧ KeepBa s.st s'.st := by
  have hex : exec env.fetch s (.tail a) = some (do let st ← s.st.runTail a tl; return (s.set a st .idle, .none)) := by
    rcases hp with hp | hp <;> simp only [exec, hp]
  cases ht : s.st.runTail a tl with
  | error e =>
    left
    rw [ht] at hex
    have he : exec env.fetch s (.tail a) = some (.error e) := hex
    rcases C10_panics_partial (hC _ _ h) (act := .tail a) trivial trivial he with ⟨⟨⟨⟩⟩ | ⟨_, _, ⟨⟩⟩ | ⟨_, _, ⟨⟩⟩, _⟩ | ⟨a', e1, e2, b2, tl2, n, h3, h4⟩ | ⟨_, ⟨⟩, _⟩
    cases e1
    subst e2
    refine ⟨n, ?_, he⟩
    rcases hp with hp | hp <;> rw [hp] at h3 <;> rcases h3 with h3 | h3 <;> cases h3 <;> exact h4
  | ok st' =>
    right
    rw [ht] at hex
    have he : exec env.fetch s (.tail a) = some (.ok (s.set a st' .idle, .none)) := hex
    refine ⟨_, he, hR h (act := .tail a) trivial (hG _ _ trivial (not_delPub (by simp))) he, fun b => ?_, runTail_ba ht⟩
    by_cases hb : b = a
    · subst hb; simp [Sys.set]
    · simp [Sys.set, upd_of_ne _ _ hb, ho b hb]

/-- The steps of one update: `PrepareUpdate` with `n` steps after `startOp`, then `Finalize`. -/
def putSteps (a : Nat) (key : Key) (value : Word) (n : Nat) : List Act :=
  [.begin a (.update key), .arm a] ++ (List.replicate n (.run a) ++ [.publish a value, .tail a])

/-- The steps of one delete. -/
def delSteps (a : Nat) (key : Key) (n : Nat) : List Act :=
  [.begin a (.delete key), .arm a] ++ (List.replicate n (.run a) ++ [.publish a 0, .tail a])

/-- The last two steps of an update, from the state `s1` in which it is prepared. -/
def PutSteps (env : Env) (R : Sys → Spec → Prop) (a : Nat) (key : Key) (value : Word) (s : Sys) (σ : Spec) (s' : Sys) (σ' : Spec) : Prop :=
  ∃ s1 σ1 f op tl st', R s1 σ1 ∧ σ1.map = σ.map ∧ s1.proc a = .upd (.held f op) ∧ op.key = key ∧ SInv s1 ∧ env.Allowed s1 (.publish a value) ∧
    publishU s1.st a op (env.fetch op.value) (decide (env.fetch op.value = op.key)) value = .ok (true, tl, st') ∧
    R (s1.set a st' (.upd (.tail true tl))) σ' ∧
    exec env.fetch (s1.set a st' (.upd (.tail true tl))) (.tail a) = some (.ok (s', .none)) ∧ KeepAl s.st s1.st

/-- An update, with nothing else going on: it takes effect and the tree is idle again, unless almost all blocks are in use, or a node of 258
slots is replaced. -/
theorem put_alone {s : Sys} {σ : Spec} (h : R s σ) (hidle : ∀ b, s.proc b = .idle) {a : Nat} (ha : a < s.st.nalloc) {key : Key}
    (hk : env.keys key) {value : Word} (hv : env.fetch (trunc55 value) = key) :
    (∃ n s' σ', execs env.fetch s (putSteps a key value n) = some s' ∧ R s' σ' ∧ (∀ b, s'.proc b = .idle) ∧
      σ'.map = upd σ.map key (some (trunc55 value)) ∧ s'.st.baNext ≤ s.st.baNext + 2 ∧ s'.st.nalloc = s.st.nalloc ∧
      PutSteps env R a key value s σ s' σ') ∨
    (∃ n s1, execs env.fetch s (prepareActs a (.update key) n) = some s1 ∧ exec env.fetch s1 (.publish a value) = some (.error .noBlocks) ∧
      maxBlockCount < s.st.baNext + 2) ∨
    (¬ env.Short ∧ ∃ n s1 s2 ev, execs env.fetch s (prepareActs a (.update key) n) = some s1 ∧
      exec env.fetch s1 (.publish a value) = some (.ok (s2, ev)) ∧ exec env.fetch s2 (.tail a) = some (.error .index)) := by
  obtain ⟨s1, x1, h1, S1, p1, o1, k1⟩ := begin_alone hR hG hC h hidle ha (c := .update key) (by simp) hk
  obtain ⟨n, s2, x2, h2, S2, ⟨f, op, p2, hkey⟩, o2, k2⟩ := prepareU_alone hR hG hC _ h1 S1 p1 rfl (Nat.le_refl _)
  have hk12 := k1.trans k2
  have hx12 : execs env.fetch s (prepareActs a (.update key) n) = some s2 := by
    unfold prepareActs
    rw [x1, x2]
  obtain ⟨t, seen, hI⟩ := (hC _ _ h2).inv
  have hall : env.Allowed s2 (.publish a value) := by simpa [Env.Allowed, p2, hkey] using hv
  have hnd : ¬ s2.DelPub (.publish a value) := by
    rintro (⟨a', v, cur, e, e'⟩ | ⟨_, _, _, e, _⟩)
    · cases e
      rw [p2] at e'; cases e'
    · cases e
  have hn := publishU_needs s2.st a op (env.fetch op.value) (decide (env.fetch op.value = op.key)) value
  rcases publishU_inv hI p2 hall with herr | ⟨b, tl, st', g1, g2, _⟩
  · right; left
    refine ⟨n, s2, hx12, ?_, ?_⟩
    · simp only [exec, p2, herr]; rfl
    · have := hn.2 herr
      rw [hk12.1.1] at this; exact this
  · have hb : b = true := by
      cases hb : b with
      | true => rfl
      | false =>
        exfalso
        obtain ⟨h1, h2⟩ := g2 hb
        have := S2.now a
        rw [p2] at this
        exact h2 (this (by rw [h1]; rfl) (by rw [h1]; rfl)).1
    subst hb
    have he : exec env.fetch s2 (.publish a value) = some (.ok (s2.set a st' (.upd (.tail true tl)), .put op.key (trunc55 value))) := by
      simp only [exec, p2, g1, bind, Except.bind, pure, Except.pure, if_true]
    have h3 := hR h2 hall (hG _ _ trivial hnd) he
    have i1 := hn.1 _ g1
    rcases tail_alone hR hG hC h3 (a := a) (b := true) (tl := tl) (.inl (by simp [Sys.set])) (fun b hb => by
      simp [Sys.set, upd_of_ne _ _ hb, o2 b hb, o1 b hb]) with ⟨m, j1, j2⟩ | ⟨s4, x4, h4, hid, k4⟩
    · right; right
      refine ⟨fun hs => ?_, n, s2, _, _, hx12, he, j2⟩
      obtain ⟨f1, f2⟩ := publishU_free g1 j1
      have := short_upd hs hI p2 f2
      omega
    · left
      refine ⟨n, s4, _, ?_, h4, hid, ?_, ?_, ?_, s2, _, f, op, tl, st', h2, rfl, p2, hkey, S2, hall, g1, h3, x4, hk12⟩
      · unfold putSteps
        rw [x1, execs_append, x2]
        show execs env.fetch s2 [.publish a value, .tail a] = _
        rw [execs_one he, execs_one x4]; rfl
      · simp [Spec.next, Spec.change, hkey]
      · rw [k4.1]
        simp only [Sys.set_st]
        have := hk12.1.1
        simp only at i1
        omega
      · rw [k4.2.1, ← hk12.1.2.1]
        exact (publishU_ctl g1).1.nalloc

end

/-- The last two steps of a delete, from the state `s1` in which it is prepared. -/
def DelSteps (env : Env) (R : Sys → Spec → Prop) (a : Nat) (key : Key) (s : Sys) (σ : Spec) (s' : Sys) (σ' : Spec) : Prop :=
  ∃ s1 σ1 cur tl st', R s1 σ1 ∧ σ1.map = σ.map ∧ s1.proc a = .del (.held cur) ∧ cur.key = key ∧ SInv s1 ∧ env.Allowed s1 (.publish a 0) ∧
    publishD s1.st a cur.op = .ok (true, tl, st') ∧ R (s1.set a st' (.del (.tail true tl))) σ' ∧
    exec env.fetch (s1.set a st' (.del (.tail true tl))) (.tail a) = some (.ok (s', .none)) ∧ KeepAl s.st s1.st

section
variable {env : Env} {G : Sys → Act → Prop} {R : Sys → Spec → Prop}
  (hR : ∀ {s σ act s' ev}, R s σ → env.Allowed s act → G s act → exec env.fetch s act = some (.ok (s', ev)) → R s' (σ.next ev))
  (hG : ∀ s act, Serial s act → G s act) (hC : ∀ s σ, R s σ → Run env Calm s σ)
include hR hG hC

/-- A delete of a stored key, with nothing else going on. -/
theorem del_alone {s : Sys} {σ : Spec} (h : R s σ) (hidle : ∀ b, s.proc b = .idle) {a : Nat} (ha : a < s.st.nalloc) {key : Key}
    (hk : σ.map key ≠ none) :
    (∃ n s' σ', execs env.fetch s (delSteps a key n) = some s' ∧ R s' σ' ∧ (∀ b, s'.proc b = .idle) ∧
      σ'.map = upd σ.map key none ∧ s'.st.baNext ≤ s.st.baNext + 2 ∧ s'.st.nalloc = s.st.nalloc ∧
      DelSteps env R a key s σ s' σ') ∨
    (∃ n s1, execs env.fetch s (prepareActs a (.delete key) n) = some s1 ∧ exec env.fetch s1 (.publish a 0) = some (.error .noBlocks) ∧
      maxBlockCount < s.st.baNext + 2) ∨
    (¬ env.Short ∧ ∃ n s1 s2 ev, execs env.fetch s (prepareActs a (.delete key) n) = some s1 ∧
      exec env.fetch s1 (.publish a 0) = some (.ok (s2, ev)) ∧ exec env.fetch s2 (.tail a) = some (.error .index)) := by
  have hG' : ∀ s act, Serial s act → ¬ s.DelPub act → G s act := fun s act h _ => hG s act h
  have hne : key ≠ [] := by
    obtain ⟨t, seen, hI⟩ := (hC _ _ h).inv
    obtain ⟨v, hv⟩ := hI.mem.content.some_iff.1 hk
    exact env.ne (hI.has hv).1
  obtain ⟨s1, x1, h1, S1, p1, o1, k1⟩ := begin_alone hR hG' hC h hidle ha (c := .delete key) (by simp) hne
  obtain ⟨n, s2, x2, h2, S2, p2', o2, k2⟩ := prepareD_alone hR hG' hC _ h1 S1 p1 rfl (Nat.le_refl _)
  have hk12 := k1.trans k2
  have hx12 : execs env.fetch s (prepareActs a (.delete key) n) = some s2 := by
    unfold prepareActs
    rw [x1, x2]
  obtain ⟨t, seen, hI⟩ := (hC _ _ h2).inv
  have hwin : ∀ M ∈ (σ.next (.begun a (.delete key))).window a, M key ≠ none := by
    intro M hM
    simp only [Spec.next, upd_same, List.mem_singleton] at hM
    rw [hM]; exact hk
  obtain ⟨cur, p2, hkey⟩ : ∃ cur, s2.proc a = .del (.held cur) ∧ cur.key = key := by
    rcases p2' with h | h
    · exact h
    · exfalso
      have hP := hI.proc a
      rw [h] at hP
      obtain ⟨M, hM, hM2⟩ := hI.absent (a := a) (by rw [h]; rfl) hP
      exact hwin M hM hM2
  have hval : env.fetch cur.op.value = cur.key := by
    have hP := hI.proc a
    rw [p2] at hP
    obtain ⟨M, hM, k', _, hf, hk'⟩ := hI.candK (a := a) (by rw [p2]; rfl) hP.1
    rw [hf, hk' (by rw [hkey]; exact hwin)]
  have hall : env.Allowed s2 (.publish a 0) := by simpa [Env.Allowed, p2] using hval
  have hcalm : Calm s2 (.publish a 0) := SInv.calm (act := .publish a 0) hI S2 trivial
  have hn := publishD_needs s2.st a cur.op
  rcases publishD_inv hI p2 hall hcalm with herr | ⟨b, tl, st', g1, g2, _⟩
  · right; left
    refine ⟨n, s2, hx12, ?_, ?_⟩
    · simp only [exec, p2, herr]; rfl
    · have := hn.2 herr
      rw [hk12.1.1] at this; omega
  · have hb : b = true := by
      cases hb : b with
      | true => rfl
      | false =>
        exfalso
        obtain ⟨h1, h2⟩ := g2 hb
        have := S2.now a
        rw [p2] at this
        exact h2 (this h1).1.1
    subst hb
    have he : exec env.fetch s2 (.publish a 0) = some (.ok (s2.set a st' (.del (.tail true tl)), .del cur.key)) := by
      simp only [exec, p2, g1, bind, Except.bind, pure, Except.pure, if_true]
    have h3 := hR h2 hall (hG _ _ trivial) he
    have i1 := hn.1 _ g1
    rcases tail_alone hR hG' hC h3 (a := a) (b := true) (tl := tl) (.inr (by simp [Sys.set])) (fun b hb => by
      simp [Sys.set, upd_of_ne _ _ hb, o2 b hb, o1 b hb]) with ⟨m, j1, j2⟩ | ⟨s4, x4, h4, hid, k4⟩
    · right; right
      refine ⟨fun hs => ?_, n, s2, _, _, hx12, he, j2⟩
      obtain ⟨f1, f2, f3⟩ := publishD_free g1 j1
      have := short_del hs hI p2 f2 f3
      omega
    · left
      refine ⟨n, s4, _, ?_, h4, hid, ?_, ?_, ?_, s2, _, cur, tl, st', h2, rfl, p2, hkey, S2, hall, g1, h3, x4, hk12⟩
      · unfold delSteps
        rw [x1, execs_append, x2]
        show execs env.fetch s2 [.publish a 0, .tail a] = _
        rw [execs_one he, execs_one x4]; rfl
      · simp [Spec.next, Spec.change, hkey]
      · rw [k4.1]
        simp only [Sys.set_st]
        have := hk12.1.1
        simp only at i1
        omega
      · rw [k4.2.1, ← hk12.1.2.1]
        exact (publishD_ctl g1).1.nalloc

end

end Radix
