import Verif.Model.LockSteps
/-!
# Invariant of the lock protocol
-/
namespace Radix

/-- The words taken and not given back, with the generation before. -/
def LPh.own : LPh → List (Nat × Int)
  | .take _ _ got => got
  | .back todo => todo
  | .held _ got => got
  | .free _ got => got
  | _ => []

/-- No two nodes of the list share a lock word. -/
def Distinct (l : List Nat) : Prop := l.Pairwise fun a b => ¬ sameLock a b

theorem sameLock_trans {a b c : Nat} (h1 : sameLock a b) (h2 : sameLock b c) : sameLock a c := ⟨h1.1.trans h2.1, h1.2.trans h2.2⟩

theorem lockPlan2_facts {node : Nat} {ng : Int} {parent : Nat} {pg : Int} {plan} (h : lockPlan2 node ng parent pg = some plan) :
    Distinct (plan.map (·.1)) ∧ (∀ x ∈ plan, x.2 % 2 = 0) ∧
    (∀ n ∈ (if parent = 0 then [node] else [node, parent]), ∃ x ∈ plan, sameLock x.1 n) ∧
    (∀ x ∈ plan, x.1 ∈ (if parent = 0 then [node] else [node, parent])) := by
  unfold lockPlan2 at h
  split at h
  · rename_i hp
    split at h
    · cases h
    · cases h
      refine ⟨by simp [Distinct], by simp; omega, ?_, ?_⟩
      · simp [hp, sameLock_refl]
      · simp [hp]
  · rename_i hp
    split at h
    · cases h
    · rename_i hg
      cases h
      simp only [hp, if_false]
      by_cases hd : lockDiffer parent node = true
      · have hd' := (lockDiffer_iff _ _).1 hd
        simp only [hd, if_true]
        refine ⟨?_, by simp; omega, ?_, ?_⟩
        · simp only [Distinct, List.map_cons, List.map_nil, List.pairwise_cons, List.mem_singleton, forall_eq, List.not_mem_nil,
            List.Pairwise.nil, and_true, false_imp_iff, implies_true]
          exact fun h => hd' (sameLock_comm.1 h)
        · simp [sameLock_refl]
        · simp
      · have hd' := (lockDiffer_false _ _).1 (by simpa using hd)
        simp only [hd]
        refine ⟨by simp [Distinct], by simp; omega, ?_, ?_⟩
        · simp [sameLock_refl, sameLock_comm.1 hd']
        · simp

theorem lockPlan_facts {req : LockReq} {plan} (h : lockPlan req = some plan) :
    Distinct (plan.map (·.1)) ∧ (∀ x ∈ plan, x.2 % 2 = 0) ∧ (∀ n ∈ req.nodes, ∃ x ∈ plan, sameLock x.1 n) ∧ (∀ x ∈ plan, x.1 ∈ req.nodes) := by
  cases req with
  | two node ng parent pg => exact lockPlan2_facts h
  | three child cg node ng parent pg =>
    simp only [lockPlan] at h
    split at h
    · rename_i hp
      have := lockPlan2_facts h
      simpa [LockReq.nodes, hp] using this
    · rename_i hp
      split at h
      · cases h
      · rename_i hg
        cases h
        simp only [LockReq.nodes, hp, if_false]
        by_cases h1 : lockDiffer node child = true
        · have h1' := (lockDiffer_iff _ _).1 h1
          by_cases h2 : (lockDiffer parent child && lockDiffer parent node) = true
          · simp only [h1, h2, if_true]
            rw [Bool.and_eq_true, lockDiffer_iff, lockDiffer_iff] at h2
            refine ⟨?_, by simp; omega, ?_, ?_⟩
            · simp [Distinct]
              exact ⟨⟨fun h => h1' (sameLock_comm.1 h), fun h => h2.1 (sameLock_comm.1 h)⟩, fun h => h2.2 (sameLock_comm.1 h)⟩
            · simp [sameLock_refl]
            · simp
          · simp only [h1, h2, if_true]
            refine ⟨?_, by simp; omega, ?_, ?_⟩
            · simp [Distinct]
              exact fun h => h1' (sameLock_comm.1 h)
            · simp [sameLock_refl]
              rw [Bool.and_eq_true, lockDiffer_iff, lockDiffer_iff, Decidable.not_and_iff_not_or_not] at h2
              rcases h2 with h2 | h2 <;> have h2 := Decidable.not_not.1 h2 <;> simp [sameLock_comm.1 h2]
            · simp
        · have h1' := (lockDiffer_false _ _).1 (by simpa using h1)
          by_cases h2 : (lockDiffer parent child && lockDiffer parent node) = true
          · simp only [h1, h2, if_true]
            rw [Bool.and_eq_true, lockDiffer_iff, lockDiffer_iff] at h2
            refine ⟨?_, by simp; omega, ?_, ?_⟩
            · simp [Distinct]
              exact fun h => h2.1 (sameLock_comm.1 h)
            · simp [sameLock_refl, sameLock_comm.1 h1']
            · simp
          · simp only [h1, h2]
            refine ⟨by simp [Distinct], by simp; omega, ?_, ?_⟩
            · simp [sameLock_refl, sameLock_comm.1 h1']
              rw [Bool.and_eq_true, lockDiffer_iff, lockDiffer_iff, Decidable.not_and_iff_not_or_not] at h2
              rcases h2 with h2 | h2 <;> have h2 := Decidable.not_not.1 h2
              · exact sameLock_comm.1 h2
              · exact sameLock_comm.1 (sameLock_trans h2 h1')
            · simp

theorem unlockPlan2_facts (node parent : Nat) :
    Distinct (unlockPlan2 node parent) ∧
    (∀ n ∈ (if parent = 0 then [node] else [node, parent]), ∃ x ∈ unlockPlan2 node parent, sameLock x n) ∧
    (∀ x ∈ unlockPlan2 node parent, x ∈ (if parent = 0 then [node] else [node, parent])) := by
  unfold unlockPlan2
  by_cases hp : parent = 0
  · simp [hp, Distinct, sameLock_refl]
  · simp only [hp, if_false]
    by_cases hd : lockDiffer node parent = true
    · have hd' := (lockDiffer_iff _ _).1 hd
      simp [hd, Distinct, sameLock_refl]
      exact fun h => hd' (sameLock_comm.1 h)
    · have hd' := (lockDiffer_false _ _).1 (by simpa using hd)
      simp [hd, Distinct, sameLock_refl, sameLock_comm.1 hd']

theorem unlockPlan_facts (req : LockReq) :
    Distinct (unlockPlan req) ∧ (∀ n ∈ req.nodes, ∃ x ∈ unlockPlan req, sameLock x n) ∧ (∀ x ∈ unlockPlan req, x ∈ req.nodes) := by
  cases req with
  | two node ng parent pg => exact unlockPlan2_facts node parent
  | three child cg node ng parent pg =>
    simp only [unlockPlan]
    by_cases hp : parent = 0
    · have := unlockPlan2_facts child node
      simpa [LockReq.nodes, hp] using this
    · simp only [LockReq.nodes, hp, if_false]
      by_cases h1 : lockDiffer node parent = true
      · have h1' := (lockDiffer_iff _ _).1 h1
        by_cases h2 : (lockDiffer child parent && lockDiffer child node) = true
        · simp only [h1, h2, if_true]
          rw [Bool.and_eq_true, lockDiffer_iff, lockDiffer_iff] at h2
          refine ⟨?_, by simp [sameLock_refl], by simp⟩
          simp [Distinct]
          exact ⟨⟨fun h => h1' (sameLock_comm.1 h), fun h => h2.1 (sameLock_comm.1 h)⟩, fun h => h2.2 (sameLock_comm.1 h)⟩
        · simp only [h1, h2, if_true]
          refine ⟨?_, ?_, by simp⟩
          · simp [Distinct]
            exact fun h => h1' (sameLock_comm.1 h)
          · simp [sameLock_refl]
            rw [Bool.and_eq_true, lockDiffer_iff, lockDiffer_iff, Decidable.not_and_iff_not_or_not] at h2
            rcases h2 with h2 | h2 <;> have h2 := Decidable.not_not.1 h2 <;> simp [sameLock_comm.1 h2]
      · have h1' := (lockDiffer_false _ _).1 (by simpa using h1)
        by_cases h2 : (lockDiffer child parent && lockDiffer child node) = true
        · simp only [h1, h2, if_true]
          rw [Bool.and_eq_true, lockDiffer_iff, lockDiffer_iff] at h2
          refine ⟨?_, ?_, by simp⟩
          · simp [Distinct]
            exact fun h => h2.1 (sameLock_comm.1 h)
          · simp [sameLock_refl, sameLock_comm.1 h1']
        · simp only [h1, h2]
          refine ⟨by simp [Distinct], ?_, by simp⟩
          simp [sameLock_refl, sameLock_comm.1 h1']
          rw [Bool.and_eq_true, lockDiffer_iff, lockDiffer_iff, Decidable.not_and_iff_not_or_not] at h2
          rcases h2 with h2 | h2 <;> have h2 := Decidable.not_not.1 h2
          · exact sameLock_comm.1 h2
          · exact sameLock_comm.1 (sameLock_trans h2 h1')

/-- What the phases know. -/
def LPh.Good : LPh → Prop
  | .take req todo got => lockPlan req = some (got ++ todo)
  | .held req got => lockPlan req = some got
  | .free todo got => Distinct todo ∧ (∀ n ∈ todo, ∃ x ∈ got, sameLock x.1 n) ∧ (∀ x ∈ got, ∃ n ∈ todo, sameLock x.1 n)
  | .panicked => False
  | _ => True

structure LSInv (s : LSys) : Prop where
  val : ∀ p, ∀ x ∈ (s.proc p).own, s.gen x.1 = x.2 + 1 ∧ x.2 % 2 = 0
  odd : ∀ n, s.gen n % 2 = 1 → ∃ p, ∃ x ∈ (s.proc p).own, sameLock x.1 n
  excl : ∀ p q, p ≠ q → ∀ x ∈ (s.proc p).own, ∀ y ∈ (s.proc q).own, ¬ sameLock x.1 y.1
  self : ∀ p, Distinct ((s.proc p).own.map (·.1))
  good : ∀ p, (s.proc p).Good

theorem gen_setWord (word : Nat → Nat → Int) (proc : Nat → LPh) (n n' : Nat) (g : Int) :
    (LSys.mk (setWord word n g) proc).gen n' = if sameLock n n' then g else (LSys.mk word proc).gen n' := by
  unfold LSys.gen setWord
  by_cases hs : sameLock n n'
  · rw [if_pos hs]
    exact if_pos ⟨hs.1.symm, hs.2.symm⟩
  · rw [if_neg hs]
    exact if_neg fun h => hs ⟨h.1.symm, h.2.symm⟩

theorem lgen_congr (s : LSys) {a b : Nat} (h : sameLock a b) : s.gen a = s.gen b := by
  unfold LSys.gen; rw [h.1, h.2]

/-- A step of thread `p` that does not change words. -/
theorem LSInv.keep {s : LSys} (h : LSInv s) {p : Nat} {ph : LPh} (ho : ph.own = (s.proc p).own) (hg : ph.Good) :
    LSInv ⟨s.word, upd s.proc p ph⟩ := by
  have ho' : ∀ q, (upd s.proc p ph q).own = (s.proc q).own := by
    intro q
    simp only [upd]
    split
    · rename_i e; rw [e]; exact ho
    · rfl
  refine ⟨?_, ?_, ?_, ?_, ?_⟩
  · intro q x hx
    simp only [ho'] at hx
    exact h.val q x hx
  · intro n hn
    obtain ⟨q, x, h1, h2⟩ := h.odd n hn
    exact ⟨q, x, by simpa only [ho'] using h1, h2⟩
  · intro q r hqr x hx y hy
    simp only [ho'] at hx hy
    exact h.excl q r hqr x hx y hy
  · intro q
    simp only [ho']
    exact h.self q
  · intro q
    simp only [upd]
    split
    · exact hg
    · exact h.good q

/-- Taking a word that nobody has. -/
theorem LSInv.grab {s : LSys} (h : LSInv s) {p : Nat} {ph : LPh} {n : Nat} {g : Int} (he : s.gen n = g) (hg2 : g % 2 = 0)
    (ho : ph.own = (s.proc p).own ++ [(n, g)]) (hg : ph.Good) : LSInv ⟨setWord s.word n (g + 1), upd s.proc p ph⟩ := by
  have hfree : ∀ q, ∀ x ∈ (s.proc q).own, ¬ sameLock x.1 n := by
    intro q x hx hs
    have := h.val q x hx
    rw [lgen_congr s hs] at this
    omega
  have ho' : ∀ q, (upd s.proc p ph q).own = if q = p then (s.proc p).own ++ [(n, g)] else (s.proc q).own := by
    intro q
    simp only [upd]
    split
    · exact ho
    · rfl
  refine ⟨?_, ?_, ?_, ?_, ?_⟩
  · intro q x hx
    simp only [ho'] at hx
    rw [gen_setWord]
    split at hx
    · rw [List.mem_append, List.mem_singleton] at hx
      rcases hx with hx | rfl
      · rw [if_neg (fun hs => hfree p x hx (sameLock_comm.1 hs))]
        exact h.val p x hx
      · rw [if_pos (sameLock_refl _)]
        exact ⟨rfl, hg2⟩
    · rw [if_neg (fun hs => hfree q x hx (sameLock_comm.1 hs))]
      exact h.val q x hx
  · intro n' hn
    rw [gen_setWord] at hn
    split at hn
    · rename_i hs
      refine ⟨p, (n, g), ?_, hs⟩
      simp only [ho']
      simp
    · obtain ⟨q, x, h1, h2⟩ := h.odd n' hn
      refine ⟨q, x, ?_, h2⟩
      simp only [ho']
      split
      · rename_i e; subst e; exact List.mem_append_left _ h1
      · exact h1
  · intro q r hqr x hx y hy hs
    simp only [ho'] at hx hy
    split at hx <;> split at hy
    · omega
    · rename_i e _
      subst e
      rw [List.mem_append, List.mem_singleton] at hx
      rcases hx with hx | rfl
      · exact h.excl q r hqr x hx y hy hs
      · exact hfree r y hy (sameLock_comm.1 hs)
    · rename_i _ e
      subst e
      rw [List.mem_append, List.mem_singleton] at hy
      rcases hy with hy | rfl
      · exact h.excl q r hqr x hx y hy hs
      · exact hfree q x hx hs
    · exact h.excl q r hqr x hx y hy hs
  · intro q
    simp only [ho']
    split
    · unfold Distinct
      rw [List.map_append, List.pairwise_append]
      refine ⟨h.self p, by simp, ?_⟩
      intro a ha b hb
      rw [List.mem_map] at ha
      obtain ⟨x, hx, rfl⟩ := ha
      simp at hb
      subst hb
      exact hfree p x hx
    · exact h.self q
  · intro q
    simp only [upd]
    split
    · exact hg
    · exact h.good q

/-- Giving a word back, with an even value. -/
theorem LSInv.drop {s : LSys} (h : LSInv s) {p : Nat} {ph : LPh} {n : Nat} {g : Int} (hg2 : g % 2 = 0)
    (hn : ∃ x ∈ (s.proc p).own, sameLock x.1 n)
    (ho : ∀ x, x ∈ ph.own ↔ x ∈ (s.proc p).own ∧ ¬ sameLock x.1 n) (hd : Distinct (ph.own.map (·.1))) (hg : ph.Good) :
    LSInv ⟨setWord s.word n g, upd s.proc p ph⟩ := by
  have other : ∀ q, q ≠ p → ∀ x ∈ (s.proc q).own, ¬ sameLock x.1 n := by
    intro q hq x hx hs
    obtain ⟨y, hy, hs'⟩ := hn
    exact h.excl p q (Ne.symm hq) y hy x hx (sameLock_trans hs' (sameLock_comm.1 hs))
  have hm : ∀ q x, x ∈ (upd s.proc p ph q).own → x ∈ (s.proc q).own ∧ ¬ sameLock x.1 n := by
    intro q x hx
    simp only [upd] at hx
    split at hx
    · rename_i e; subst e; exact (ho x).1 hx
    · rename_i e; exact ⟨hx, other q e x hx⟩
  refine ⟨?_, ?_, ?_, ?_, ?_⟩
  · intro q x hx
    obtain ⟨h1, h2⟩ := hm q x hx
    rw [gen_setWord, if_neg (fun hs => h2 (sameLock_comm.1 hs))]
    exact h.val q x h1
  · intro n' hn'
    rw [gen_setWord] at hn'
    split at hn'
    · omega
    · rename_i hs
      obtain ⟨q, x, h1, h2⟩ := h.odd n' hn'
      refine ⟨q, x, ?_, h2⟩
      simp only [upd]
      split
      · rename_i e
        subst e
        exact (ho x).2 ⟨h1, fun h3 => hs (sameLock_trans (sameLock_comm.1 h3) h2)⟩
      · exact h1
  · intro q r hqr x hx y hy
    exact h.excl q r hqr x (hm q x hx).1 y (hm r y hy).1
  · intro q
    simp only [upd]
    split
    · exact hd
    · exact h.self q
  · intro q
    simp only [upd]
    split
    · exact hg
    · exact h.good q

theorem Distinct.filter {l : List (Nat × Int)} {f : Nat × Int → Bool} (h : Distinct (l.map (·.1))) : Distinct ((l.filter f).map (·.1)) := by
  unfold Distinct at *
  rw [List.pairwise_map] at *
  exact h.filter f

theorem lexec_inv {s s' : LSys} {act : LAct} (h : LSInv s) (he : lexec s act = some s') : LSInv s' := by
  cases act with
  | lock p req =>
    simp only [lexec] at he
    split at he
    · rename_i hp
      split at he
      · cases he; exact h
      · rename_i plan hpl
        cases he
        exact h.keep (by rw [hp]; rfl) (by simpa [LPh.Good] using hpl)
    · cases he
  | unlock p =>
    simp only [lexec] at he
    split at he
    · rename_i req got hp
      cases he
      have hg := h.good p
      rw [hp] at hg
      obtain ⟨f1, _, f3, f4⟩ := lockPlan_facts hg
      obtain ⟨u1, u2, u3⟩ := unlockPlan_facts req
      refine h.keep (by rw [hp]; rfl) ⟨u1, fun n hn => f3 n (u3 n hn), fun x hx => ?_⟩
      obtain ⟨n, h1, h2⟩ := u2 x.1 (f4 x hx)
      exact ⟨n, h1, sameLock_comm.1 h2⟩
    · cases he
  | step p =>
    simp only [lexec] at he
    split at he
    · rename_i req got hp
      cases he
      have hg := h.good p
      rw [hp] at hg
      exact h.keep (by rw [hp]; rfl) (by simpa [LPh.Good] using hg)
    · rename_i req n g todo got hp
      have hg := h.good p
      rw [hp] at hg
      obtain ⟨_, f2, _, _⟩ := lockPlan_facts hg
      split at he
      · rename_i hgen
        cases he
        exact h.grab hgen (f2 (n, g) (by simp)) (by rw [hp]; rfl) (by simpa [LPh.Good] using hg)
      · cases he
        exact h.keep (by rw [hp]; rfl) trivial
    · rename_i hp
      cases he
      exact h.keep (by rw [hp]; rfl) trivial
    · rename_i n g todo hp
      cases he
      have hv := h.val p (n, g) (by rw [hp]; simp [LPh.own])
      have hs := h.self p
      rw [hp] at hs
      simp only [LPh.own, Distinct, List.map_cons, List.pairwise_cons] at hs
      refine h.drop (by simp only at hv; omega) ⟨(n, g), by rw [hp]; simp [LPh.own], sameLock_refl _⟩ ?_ hs.2 trivial
      intro x
      rw [hp]
      simp only [LPh.own, List.mem_cons]
      constructor
      · intro hx
        exact ⟨.inr hx, fun h' => hs.1 x.1 (List.mem_map_of_mem hx) (sameLock_comm.1 h')⟩
      · rintro ⟨rfl | hx, h2⟩
        · exact absurd (sameLock_refl _) h2
        · exact hx
    · rename_i got hp
      cases he
      have hg := h.good p
      rw [hp] at hg
      refine h.keep ?_ trivial
      rw [hp]
      simp only [LPh.own]
      cases got with
      | nil => rfl
      | cons x l =>
        obtain ⟨n, h1, _⟩ := hg.2.2 x (by simp)
        cases h1
    · rename_i n todo got hp
      cases he
      have hg := h.good p
      rw [hp] at hg
      obtain ⟨g1, g2, g3⟩ := hg
      obtain ⟨x, hx, hxs⟩ := g2 n (by simp)
      have hv := h.val p x (by rw [hp]; exact hx)
      rw [lgen_congr s hxs] at hv
      have hev : (s.gen n + 1) % 2 = 0 := by omega
      rw [if_neg (by omega)]
      refine h.drop hev ⟨x, by rw [hp]; exact hx, hxs⟩ ?_ ?_ ?_
      · intro y
        rw [hp]
        simp only [LPh.own, List.mem_filter, lockDiffer_iff]
      · have := h.self p
        rw [hp] at this
        exact this.filter
      · unfold Distinct at g1
        rw [List.pairwise_cons] at g1
        refine ⟨g1.2, ?_, ?_⟩
        · intro m hm
          obtain ⟨y, h1, h2⟩ := g2 m (List.mem_cons_of_mem _ hm)
          refine ⟨y, ?_, h2⟩
          rw [List.mem_filter, lockDiffer_iff]
          exact ⟨h1, fun h3 => g1.1 m hm (sameLock_trans (sameLock_comm.1 h3) h2)⟩
        · intro y hy
          rw [List.mem_filter, lockDiffer_iff] at hy
          obtain ⟨m, h1, h2⟩ := g3 y hy.1
          rcases List.mem_cons.1 h1 with rfl | h1
          · exact absurd h2 hy.2
          · exact ⟨m, h1, h2⟩
    · cases he

theorem LRun.inv {s : LSys} (h : LRun s) : LSInv s := by
  induction h with
  | init word h0 =>
    refine ⟨fun p x hx => ?_, fun n hn => ?_, fun p q _ x hx => ?_, fun p => ?_, fun p => trivial⟩
    · cases hx
    · have : word (lockBlock n) (lockIdx n) % 2 = 1 := hn
      rw [h0] at this; omega
    · cases hx
    · simp [LPh.own, Distinct]
  | step _ he ih => exact lexec_inv ih he


theorem lockPlan_ne {req : LockReq} {plan} (h : lockPlan req = some plan) : plan ≠ [] := by
  have h2 : ∀ {n ng p pg plan}, lockPlan2 n ng p pg = some plan → plan ≠ [] := by
    intro n ng p pg plan h
    unfold lockPlan2 at h
    split at h
    · split at h
      · cases h
      · cases h; simp
    · split at h
      · cases h
      · cases h; simp
  cases req with
  | two n ng p pg => exact h2 h
  | three c cg n ng p pg =>
    simp only [lockPlan] at h
    split at h
    · exact h2 h
    · split at h
      · cases h
      · cases h; simp

end Radix
