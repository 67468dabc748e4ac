import Verif.LockSteps
import Verif.Sys.LockInv
import Verif.Sys.Relock
/-!
# The locks of the fine steps and the locks of the coarse steps
-/
set_option autoImplicit false
namespace Radix

/-- The lock words taken by a call of `lockNodes2` or `lockNodes3` that has not succeeded yet, or that has failed. -/
def FPh.temp : FPh → List (Nat × Int)
  | .take _ got => got
  | .merge got _ => got
  | .back todo => todo
  | _ => []

/-- The root lock is taken by a call of `lockLeafRoot` that has not succeeded yet, or that has failed. -/
def FPh.holdsRoot : FPh → Bool
  | .root => true
  | .rootBack => true
  | _ => false

/-- The locks with fine steps (`st`) and with coarse steps (`st0`): only the locks held for a moment differ. -/
structure LockRel (fine : Nat → FPh) (st st0 : St) : Prop where
  held : ∀ a x, x ∈ (fine a).temp → st.gen x.1 = x.2 + 1 ∧ st0.gen x.1 = x.2 ∧ x.2 % 2 = 0
  sep : ∀ a b, a ≠ b → ∀ x ∈ (fine a).temp, ∀ y ∈ (fine b).temp, ¬ sameLock x.1 y.1
  self : ∀ a, Distinct ((fine a).temp.map (·.1))
  same : ∀ n, (∀ a x, x ∈ (fine a).temp → ¬ sameLock x.1 n) → st.gen n = st0.gen n
  root : (∃ a, (fine a).holdsRoot = true ∧ st.rootLock = 1 ∧ st0.rootLock = 0 ∧ ∀ b, (fine b).holdsRoot = true → b = a) ∨
    ((∀ a, (fine a).holdsRoot = false) ∧ st.rootLock = st0.rootLock)

section
variable {fine : Nat → FPh} {st st0 : St} {a : Nat} {ph : FPh}

/-- Either the two lock words agree, or the word is held for a moment. -/
theorem LockRel.cases (h : LockRel fine st st0) (n : Nat) :
    (∃ b x, x ∈ (fine b).temp ∧ sameLock x.1 n ∧ st.gen n = st0.gen n + 1 ∧ st0.gen n % 2 = 0) ∨
      (st.gen n = st0.gen n ∧ ∀ a x, x ∈ (fine a).temp → ¬ sameLock x.1 n) := by
  by_cases hx : ∃ b x, x ∈ (fine b).temp ∧ sameLock x.1 n
  · obtain ⟨b, x, h1, h2⟩ := hx
    obtain ⟨h3, h4, h5⟩ := h.held b x h1
    rw [gen_congr h2] at h3 h4
    exact .inl ⟨b, x, h1, h2, by omega, by omega⟩
  · have : ∀ a x, x ∈ (fine a).temp → ¬ sameLock x.1 n := fun a x h1 h2 => hx ⟨a, x, h1, h2⟩
    exact .inr ⟨h.same n this, this⟩

/-- A word that is even is not held. -/
theorem LockRel.free (h : LockRel fine st st0) {n : Nat} (hn : st.gen n % 2 = 0) :
    st.gen n = st0.gen n ∧ ∀ a x, x ∈ (fine a).temp → ¬ sameLock x.1 n := by
  rcases h.cases n with ⟨_, _, _, _, h1, h2⟩ | h
  · omega
  · exact h

theorem LockRel.freeOdd (h : LockRel fine st st0) {n : Nat} (hn : st0.gen n % 2 = 1) :
    st.gen n = st0.gen n ∧ ∀ a x, x ∈ (fine a).temp → ¬ sameLock x.1 n := by
  rcases h.cases n with ⟨_, _, _, _, h1, h2⟩ | h
  · omega
  · exact h

theorem mem_upd_temp {b : Nat} {x : Nat × Int} (h : x ∈ (upd fine a ph b).temp) : (b = a ∧ x ∈ ph.temp) ∨ (b ≠ a ∧ x ∈ (fine b).temp) := by
  by_cases hb : b = a
  · subst hb; rw [upd_same] at h; exact .inl ⟨rfl, h⟩
  · rw [upd_of_ne _ _ hb] at h; exact .inr ⟨hb, h⟩

theorem LockRel.rootKeep (h : LockRel fine st st0) (hr : ph.holdsRoot = (fine a).holdsRoot) {r r0 : Int} (e : r = st.rootLock) (e0 : r0 = st0.rootLock) :
    (∃ b, (upd fine a ph b).holdsRoot = true ∧ r = 1 ∧ r0 = 0 ∧ ∀ c, (upd fine a ph c).holdsRoot = true → c = b) ∨
    ((∀ b, (upd fine a ph b).holdsRoot = false) ∧ r = r0) := by
  have he : ∀ b, (upd fine a ph b).holdsRoot = (fine b).holdsRoot := by
    intro b
    by_cases hb : b = a
    · subst hb; rw [upd_same, hr]
    · rw [upd_of_ne _ _ hb]
  subst e e0
  simpa only [he] using h.root

/-- The place changes, the locks do not. -/
theorem LockRel.keep (h : LockRel fine st st0) (ht : ph.temp = (fine a).temp) (hr : ph.holdsRoot = (fine a).holdsRoot) :
    LockRel (upd fine a ph) st st0 := by
  have he : ∀ b, (upd fine a ph b).temp = (fine b).temp := by
    intro b
    by_cases hb : b = a
    · subst hb; rw [upd_same, ht]
    · rw [upd_of_ne _ _ hb]
  refine ⟨?_, ?_, ?_, ?_, h.rootKeep hr rfl rfl⟩
  · simpa only [he] using h.held
  · simpa only [he] using h.sep
  · simpa only [he] using h.self
  · simpa only [he] using h.same

/-- One more word is taken. -/
theorem LockRel.take (h : LockRel fine st st0) {n : Nat} {g : Int} (hg : st.gen n = g) (h2 : g % 2 = 0) (ht : ph.temp = (fine a).temp ++ [(n, g)])
    (hr : ph.holdsRoot = (fine a).holdsRoot) : LockRel (upd fine a ph) (st.setGen n (g + 1)) st0 := by
  obtain ⟨hf1, hf2⟩ := h.free (n := n) (by omega)
  have hold : ∀ b x, x ∈ (fine b).temp → (st.setGen n (g + 1)).gen x.1 = x.2 + 1 ∧ st0.gen x.1 = x.2 ∧ x.2 % 2 = 0 := by
    intro b x hx
    rw [gen_setGen, if_neg (fun e => hf2 b x hx (sameLock_comm.1 e))]
    exact h.held b x hx
  have hme : ∀ x, x ∈ ph.temp → x ∈ (fine a).temp ∨ x = (n, g) := by
    intro x hx
    rw [ht, List.mem_append, List.mem_singleton] at hx
    exact hx
  refine ⟨?_, ?_, ?_, ?_, h.rootKeep hr rfl rfl⟩
  · intro b x hx
    have hx1 := mem_upd_temp hx
    clear hx
    rcases hx1 with ⟨rfl, hx⟩ | ⟨_, hx⟩
    · rcases hme x hx with hx | rfl
      · exact hold _ x hx
      · exact ⟨by rw [gen_setGen, if_pos (sameLock_refl _)], by rw [← hf1, hg], h2⟩
    · exact hold _ x hx
  · intro b c hbc x hx y hy
    have hx1 := mem_upd_temp hx
    have hy1 := mem_upd_temp hy
    clear hx hy
    rcases hx1 with ⟨rfl, hx⟩ | ⟨_, hx⟩ <;> rcases hy1 with ⟨rfl, hy⟩ | ⟨_, hy⟩
    · exact absurd rfl hbc
    · rcases hme x hx with hx | rfl
      · exact h.sep _ _ hbc x hx y hy
      · exact fun e => hf2 _ y hy (sameLock_comm.1 e)
    · rcases hme y hy with hy | rfl
      · exact h.sep _ _ hbc x hx y hy
      · exact fun e => hf2 _ x hx e
    · exact h.sep _ _ hbc x hx y hy
  · intro b
    by_cases hb : b = a
    · subst hb
      rw [upd_same, ht, List.map_append, Distinct, List.pairwise_append]
      refine ⟨h.self b, by simp, ?_⟩
      intro x hx y hy
      simp only [List.map_cons, List.map_nil, List.mem_singleton] at hy
      subst hy
      obtain ⟨z, hz, rfl⟩ := List.mem_map.1 hx
      exact hf2 b z hz
    · rw [upd_of_ne _ _ hb]; exact h.self b
  · intro m hm
    have hnm : ¬ sameLock n m := hm a (n, g) (by rw [upd_same, ht]; simp)
    rw [gen_setGen, if_neg hnm]
    refine h.same m fun b x hx => ?_
    by_cases hb : b = a
    · subst hb; exact hm b x (by rw [upd_same, ht]; simp [hx])
    · exact hm b x (by rw [upd_of_ne _ _ hb]; exact hx)

/-- A word is given back. -/
theorem LockRel.give (h : LockRel fine st st0) {n : Nat} {g : Int} (ht : (fine a).temp = (n, g) :: ph.temp)
    (hr : ph.holdsRoot = (fine a).holdsRoot) : LockRel (upd fine a ph) (st.setGen n (st.gen n - 1)) st0 := by
  obtain ⟨h1, h2, h3⟩ := h.held a (n, g) (by rw [ht]; simp)
  have hself := h.self a
  rw [ht, List.map_cons, Distinct, List.pairwise_cons] at hself
  have hin : ∀ x, x ∈ ph.temp → x ∈ (fine a).temp := fun x hx => by rw [ht]; simp [hx]
  have hne : ∀ b x, x ∈ (upd fine a ph b).temp → ¬ sameLock n x.1 := by
    intro b x hx
    have hx1 := mem_upd_temp hx
    clear hx
    rcases hx1 with ⟨rfl, hx⟩ | ⟨hb, hx⟩
    · exact hself.1 _ (List.mem_map.2 ⟨x, hx, rfl⟩)
    · exact h.sep a b (fun e => hb e.symm) (n, g) (by rw [ht]; simp) x hx
  have hsub : ∀ b x, x ∈ (upd fine a ph b).temp → x ∈ (fine b).temp := by
    intro b x hx
    have hx1 := mem_upd_temp hx
    clear hx
    rcases hx1 with ⟨rfl, hx⟩ | ⟨hb, hx⟩
    · exact hin x hx
    · exact hx
  refine ⟨?_, ?_, ?_, ?_, h.rootKeep hr rfl rfl⟩
  · intro b x hx
    rw [gen_setGen, if_neg (hne b x hx)]
    exact h.held b x (hsub b x hx)
  · intro b c hbc x hx y hy
    exact h.sep b c hbc x (hsub b x hx) y (hsub c y hy)
  · intro b
    by_cases hb : b = a
    · subst hb; rw [upd_same]; exact hself.2
    · rw [upd_of_ne _ _ hb]; exact h.self b
  · intro m hm
    rw [gen_setGen]
    by_cases hnm : sameLock n m
    · rw [if_pos hnm, h1]
      rw [gen_congr hnm] at h2
      simp only at h2 ⊢
      omega
    · rw [if_neg hnm]
      refine h.same m fun b x hx => ?_
      by_cases hb : b = a
      · subst hb
        rw [ht] at hx
        rcases List.mem_cons.1 hx with rfl | hx
        · exact hnm
        · exact hm b x (by rw [upd_same]; exact hx)
      · exact hm b x (by rw [upd_of_ne _ _ hb]; exact hx)

/-- The words taken so far become the locks of the operation. -/
theorem LockRel.win (h : LockRel fine st st0) {st0' : St} (hr0 : st0'.rootLock = st0.rootLock)
    (hg : ∀ n, st0'.gen n = if ∃ x ∈ (fine a).temp, sameLock x.1 n then st0.gen n + 1 else st0.gen n) (ht : ph.temp = [])
    (hr : ph.holdsRoot = (fine a).holdsRoot) : LockRel (upd fine a ph) st st0' := by
  have hsub : ∀ b x, x ∈ (upd fine a ph b).temp → b ≠ a ∧ x ∈ (fine b).temp := by
    intro b x hx
    have hx1 := mem_upd_temp hx
    clear hx
    rcases hx1 with ⟨rfl, hx⟩ | h
    · rw [ht] at hx; cases hx
    · exact h
  refine ⟨?_, ?_, ?_, ?_, h.rootKeep hr rfl hr0⟩
  · intro b x hx
    obtain ⟨hb, hx⟩ := hsub b x hx
    rw [hg, if_neg]
    · exact h.held b x hx
    · rintro ⟨y, hy, e⟩
      exact h.sep a b (fun e => hb e.symm) y hy x hx e
  · intro b c hbc x hx y hy
    exact h.sep b c hbc x (hsub b x hx).2 y (hsub c y hy).2
  · intro b
    by_cases hb : b = a
    · subst hb; rw [upd_same, ht]; simp [Distinct]
    · rw [upd_of_ne _ _ hb]; exact h.self b
  · intro m hm
    rw [hg]
    by_cases hx : ∃ x ∈ (fine a).temp, sameLock x.1 m
    · rw [if_pos hx]
      obtain ⟨x, hx, e⟩ := hx
      obtain ⟨h1, h2, _⟩ := h.held a x hx
      rw [gen_congr e] at h1 h2
      omega
    · rw [if_neg hx]
      refine h.same m fun b x hx' => ?_
      by_cases hb : b = a
      · subst hb; exact fun e => hx ⟨x, hx', e⟩
      · exact hm b x (by rw [upd_of_ne _ _ hb]; exact hx')

/-- A lock of an operation is released. -/
theorem LockRel.release (h : LockRel fine st st0) {n : Nat} (hn : st0.gen n % 2 = 1) :
    LockRel fine (st.setGen n (st.gen n + 1)) (st0.setGen n (st0.gen n + 1)) := by
  obtain ⟨h1, h2⟩ := h.freeOdd hn
  refine ⟨?_, h.sep, h.self, ?_, h.root⟩
  · intro b x hx
    rw [gen_setGen, gen_setGen, if_neg (fun e => h2 b x hx (sameLock_comm.1 e)), if_neg (fun e => h2 b x hx (sameLock_comm.1 e))]
    exact h.held b x hx
  · intro m hm
    rw [gen_setGen, gen_setGen, h1]
    split
    · rfl
    · exact h.same m hm

/-- States with the same lock words. -/
theorem LockRel.congr (h : LockRel fine st st0) {st' st0' : St} (e1 : st'.locks = st.locks) (e2 : st'.rootLock = st.rootLock)
    (e3 : st0'.locks = st0.locks) (e4 : st0'.rootLock = st0.rootLock) : LockRel fine st' st0' := by
  have g1 : ∀ n, st'.gen n = st.gen n := fun n => by unfold St.gen; rw [e1]
  have g2 : ∀ n, st0'.gen n = st0.gen n := fun n => by unfold St.gen; rw [e3]
  refine ⟨?_, h.sep, h.self, ?_, ?_⟩
  · simpa only [g1, g2] using h.held
  · simpa only [g1, g2] using h.same
  · simpa only [e2, e4] using h.root

theorem LockRel.temp_congr (h : LockRel fine st st0) {st' st0' : St} (ht : ph.temp = (fine a).temp) (e1 : st'.locks = st.locks)
    (e3 : st0'.locks = st0.locks)
    (hr : (∃ b, (upd fine a ph b).holdsRoot = true ∧ st'.rootLock = 1 ∧ st0'.rootLock = 0 ∧ ∀ c, (upd fine a ph c).holdsRoot = true → c = b) ∨
      ((∀ b, (upd fine a ph b).holdsRoot = false) ∧ st'.rootLock = st0'.rootLock)) : LockRel (upd fine a ph) st' st0' := by
  have he : ∀ b, (upd fine a ph b).temp = (fine b).temp := by
    intro b
    by_cases hb : b = a
    · subst hb; rw [upd_same, ht]
    · rw [upd_of_ne _ _ hb]
  have g1 : ∀ n, st'.gen n = st.gen n := fun n => by unfold St.gen; rw [e1]
  have g2 : ∀ n, st0'.gen n = st0.gen n := fun n => by unfold St.gen; rw [e3]
  refine ⟨?_, ?_, ?_, ?_, hr⟩
  · simpa only [he, g1, g2] using h.held
  · simpa only [he] using h.sep
  · simpa only [he] using h.self
  · simpa only [he, g1, g2] using h.same

/-- The root lock is free in both. -/
theorem LockRel.rootFree (h : LockRel fine st st0) (hr : st.rootLock = 0) : st0.rootLock = 0 ∧ ∀ b, (fine b).holdsRoot = false := by
  rcases h.root with ⟨_, _, h1, _⟩ | ⟨h1, h2⟩
  · omega
  · exact ⟨by omega, h1⟩

theorem LockRel.rootMine (h : LockRel fine st st0) (hr : (fine a).holdsRoot = true) :
    st.rootLock = 1 ∧ st0.rootLock = 0 ∧ ∀ b, b ≠ a → (fine b).holdsRoot = false := by
  rcases h.root with ⟨b, h0, h1, h2, h3⟩ | ⟨h1, h2⟩
  · have := h3 a hr
    subst this
    refine ⟨h1, h2, fun b hb => ?_⟩
    cases hx : (fine b).holdsRoot
    · rfl
    · exact absurd (h3 b hx) hb
  · rw [h1 a] at hr; cases hr

end

/-! ## `lockNodes2` and `lockNodes3` -/

/-- The call. -/
def LockReq.run (st : St) : LockReq → Bool × St
  | .two node ng parent pg => st.lockNodes2 node ng parent pg
  | .three child cg node ng parent pg => st.lockNodes3 child cg node ng parent pg

theorem LockReq.run_eq (st : St) (req : LockReq) : req.run st = match lockPlan req with
    | none => (false, st)
    | some plan => runLock st plan [] := by
  cases req with
  | two node ng parent pg => exact runLock_lockNodes2 st node ng parent pg
  | three child cg node ng parent pg => exact runLock_lockNodes3 st child cg node ng parent pg

theorem LockReq.run_lost {st : St} {req : LockReq} (h : (req.run st).1 = false) : req.run st = (false, st) := by
  cases req with
  | two node ng parent pg =>
    rcases lockNodes2_takes (st := st) (node := node) (ng := ng) (parent := parent) (pg := pg) rfl with ⟨h1, _⟩ | ⟨h1, h2⟩
    · exact absurd (h1.symm.trans h) (by simp)
    · exact Prod.ext h1 h2
  | three child cg node ng parent pg =>
    rcases lockNodes3_takes (st := st) (child := child) (cg := cg) (node := node) (ng := ng) (parent := parent) (pg := pg) rfl with ⟨h1, _⟩ | ⟨h1, h2⟩
    · exact absurd (h1.symm.trans h) (by simp)
    · exact Prod.ext h1 h2

theorem runLock_win : ∀ (plan : List (Nat × Int)) (st : St) (got : List (Nat × Int)), Distinct (plan.map (·.1)) → (∀ x ∈ plan, st.gen x.1 = x.2) →
    ∃ L, runLock st plan got = (true, st.relock L st.rootLock) ∧
      ∀ n, (st.relock L st.rootLock).gen n = if ∃ x ∈ plan, sameLock x.1 n then st.gen n + 1 else st.gen n
  | [], st, _, _, _ => ⟨st.locks, rfl, by intro n; simp; rfl⟩
  | (m, g) :: plan, st, got, hd, hg => by
    rw [List.map_cons, Distinct, List.pairwise_cons] at hd
    have hm : st.gen m = g := hg (m, g) (by simp)
    have hg' : ∀ x ∈ plan, (st.setGen m (g + 1)).gen x.1 = x.2 := by
      intro x hx
      rw [gen_setGen, if_neg (hd.1 _ (List.mem_map.2 ⟨x, hx, rfl⟩))]
      exact hg x (by simp [hx])
    obtain ⟨L, e1, e2⟩ := runLock_win plan (st.setGen m (g + 1)) (got ++ [(m, g)]) hd.2 hg'
    refine ⟨L, ?_, ?_⟩
    · simp only [runLock, hm, if_true]
      rw [e1]
      rfl
    · intro n
      have := e2 n
      rw [gen_setGen] at this
      show ((st.setGen m (g + 1)).relock L st.rootLock).gen n = _
      rw [show (st.setGen m (g + 1)).rootLock = st.rootLock from rfl] at this
      rw [this]
      by_cases hmn : sameLock m n
      · have hno : ¬ ∃ x ∈ plan, sameLock x.1 n := by
          rintro ⟨x, hx, e⟩
          exact hd.1 _ (List.mem_map.2 ⟨x, hx, rfl⟩) (sameLock_trans hmn (sameLock_comm.1 e))
        rw [if_neg hno, if_pos hmn, if_pos ⟨(m, g), by simp, hmn⟩, ← hm, gen_congr hmn]
      · rw [if_neg hmn]
        have : (∃ x ∈ (m, g) :: plan, sameLock x.1 n) ↔ ∃ x ∈ plan, sameLock x.1 n := by
          constructor
          · rintro ⟨x, hx, e⟩
            rcases List.mem_cons.1 hx with rfl | hx
            · exact absurd e hmn
            · exact ⟨x, hx, e⟩
          · rintro ⟨x, hx, e⟩; exact ⟨x, by simp [hx], e⟩
        simp only [this]

theorem runLock_lose : ∀ (plan : List (Nat × Int)) (st : St) (got : List (Nat × Int)), Distinct (plan.map (·.1)) → (∃ x ∈ plan, st.gen x.1 ≠ x.2) →
    (runLock st plan got).1 = false
  | [], _, _, _, h => by obtain ⟨x, hx, _⟩ := h; cases hx
  | (m, g) :: plan, st, got, hd, h => by
    rw [List.map_cons, Distinct, List.pairwise_cons] at hd
    simp only [runLock]
    split
    · rename_i hm
      refine runLock_lose plan _ _ hd.2 ?_
      obtain ⟨x, hx, hne⟩ := h
      rcases List.mem_cons.1 hx with rfl | hx
      · exact absurd hm hne
      · refine ⟨x, hx, ?_⟩
        rw [gen_setGen, if_neg (hd.1 _ (List.mem_map.2 ⟨x, hx, rfl⟩))]
        exact hne
    · rfl

/-- All compare-and-swaps succeed. -/
theorem LockReq.run_win {st : St} {req : LockReq} {plan} (h : lockPlan req = some plan) (hg : ∀ x ∈ plan, st.gen x.1 = x.2) :
    ∃ L, req.run st = (true, st.relock L st.rootLock) ∧
      ∀ n, (st.relock L st.rootLock).gen n = if ∃ x ∈ plan, sameLock x.1 n then st.gen n + 1 else st.gen n := by
  rw [LockReq.run_eq, h]
  exact runLock_win plan st [] (lockPlan_facts h).1 hg

/-- One of them fails. -/
theorem LockReq.run_lose {st : St} {req : LockReq} {plan} (h : lockPlan req = some plan) (hg : ∃ x ∈ plan, st.gen x.1 ≠ x.2) :
    req.run st = (false, st) := by
  refine LockReq.run_lost ?_
  rw [LockReq.run_eq, h]
  exact runLock_lose plan st [] (lockPlan_facts h).1 hg

theorem LockReq.run_none {st : St} {req : LockReq} (h : lockPlan req = none) : req.run st = (false, st) := by
  rw [LockReq.run_eq, h]

end Radix
