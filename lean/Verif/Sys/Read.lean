import Verif.Sys.Facts
import Verif.CountProof
import Verif.Dense
/-!
# What the readers find in a reachable state
-/
set_option autoImplicit false
namespace Radix
open T

/-- The stored keys with prefix `p` and their values, in key order. -/
def Listing (M : Map) (p : Key) (l : List (Key × Word)) : Prop :=
  l.Pairwise (fun a b => a.1 < b.1) ∧ ∀ k v, (k, v) ∈ l ↔ M k = some v ∧ p <+: k

theorem lex_irrefl (k : Key) : ¬ k < k := List.lt_irrefl k

/-- There is only one listing. -/
theorem Listing.unique {M : Map} {p : Key} {l l' : List (Key × Word)} (h : Listing M p l) (h' : Listing M p l') : l = l' := by
  have hp : l.Perm l' := by
    refine (List.perm_ext_iff_of_nodup ?_ ?_).2 fun x => ?_
    · exact List.Pairwise.imp (S := (· ≠ ·)) (fun {a b} h e => by subst e; exact lex_irrefl _ h) h.1
    · exact List.Pairwise.imp (S := (· ≠ ·)) (fun {a b} h e => by subst e; exact lex_irrefl _ h) h'.1
    · obtain ⟨k, v⟩ := x; rw [h.2, h'.2]
  refine hp.eq_of_pairwise (le := fun a b => a.1 < b.1) ?_ h.1 h'.1
  intro a b _ _ h1 h2
  exact absurd (List.lt_trans h1 h2) (lex_irrefl _)

variable {env : Env} {s : Sys} {σ : Spec} {t : T} {seen : Nat → T → Prop}

theorem T.Dense.at {t q t'} (hat : At t q t') : t.Dense → t'.Dense := by
  induction hat with
  | here => exact id
  | down _ ih => intro h; exact ih (h.2 _)

theorem Inv.has_iff (hI : Inv env s σ t seen) (k : Key) (v : Word) : t.Has k v ↔ σ.map k = some v := hI.mem.content k v

/-- Values of leaves of a subtree are as stored. -/
theorem Inv.vals (hI : Inv env s σ t seen) {q t0} (hat : At t q t0) : Radix.vals t0.leaves = t0.leaves.map (·.2) := by
  unfold Radix.vals
  refine List.map_congr_left fun x hx => ?_
  obtain ⟨k, v⟩ := x
  have := hat.has (T.mem_leaves.1 hx)
  exact (hI.stored ((hI.has_iff k v).1 this)).2.2

/-- The whole tree lists all keys. -/
theorem Inv.listing_nil (hI : Inv env s σ t seen) : Listing σ.map [] t.leaves :=
  ⟨T.leaves_sorted hI.mem.core.wf, fun k v => by rw [T.mem_leaves, hI.has_iff]; simp⟩

/-- A prefix search ends at a subtree whose leaves are the keys with the prefix, or at a leaf without the prefix, and then there
are no keys with the prefix. -/
theorem Inv.seek (hI : Inv env s σ t seen) (p : Key) (hb : p ≠ [] → 0 < s.st.nblocks) :
    ∃ b0 t0 q0 d, t0 = (t.seekRoot p).2 ∧ partialSearch s.st p = .ok (wordOf b0 t0, d) ∧ Held env.P s.st t0 q0 ∧ Radix.vals t0.leaves = t0.leaves.map (·.2) ∧
      (t.Dense → t0.Dense) ∧
      (Listing σ.map p t0.leaves ∨ ∃ k v, t0 = .leaf k v ∧ σ.map k = some v ∧ ¬ p <+: k ∧ Listing σ.map p []) := by
  have hne : ∀ k v, t.Has k v → k ≠ [] := fun k v h => env.ne (hI.stored ((hI.has_iff k v).1 h)).1
  obtain ⟨d, h1⟩ := partialSearch_tree (sp := p) hI.mem.core fun _ => hb
  obtain ⟨h2, h3⟩ := T.seekRoot_spec (sp := p) hI.mem.core.wf hne
  have hheld : ∃ q, Held env.P s.st (t.seekRoot p).2 q := by
    rcases T.seekRoot_at (sp := p) (t := t) with h | ⟨q, h⟩
    · rw [h]
      exact ⟨[], hI.mem.core.nb, trivial, trivial, trivial⟩
    · exact ⟨_, hI.mem.core.held.at h⟩
  obtain ⟨q, hheld⟩ := hheld
  have hsub : ∀ k v, (t.seekRoot p).2.Has k v → t.Has k v := by
    intro k v hk
    rcases T.seekRoot_at (sp := p) (t := t) with h | ⟨q, h⟩
    · rw [h] at hk; cases hk
    · exact h.has hk
  refine ⟨_, _, q, d, rfl, h1, hheld, ?_, ?_, ?_⟩
  · rcases T.seekRoot_at (sp := p) (t := t) with h | ⟨q, h⟩
    · rw [h]; rfl
    · exact hI.vals h
  · intro hf
    rcases T.seekRoot_at (sp := p) (t := t) with h | ⟨q, h⟩
    · rw [h]; trivial
    · exact hf.at h
  · by_cases hall : ∀ k v, (t.seekRoot p).2.Has k v → p <+: k
    · refine .inl ⟨T.leaves_sorted hheld.wf, fun k v => ?_⟩
      rw [T.mem_leaves]
      constructor
      · intro h; exact ⟨(hI.has_iff k v).1 (hsub k v h), hall k v h⟩
      · rintro ⟨h, hp⟩; exact h2 k v ((hI.has_iff k v).2 h) hp
    · right
      cases ht0 : (t.seekRoot p).2 with
      | empty => exact absurd (fun k v h => by rw [ht0] at h; cases h) hall
      | node => exact absurd (h3 (by rw [ht0]; rfl)) hall
      | leaf lk lv =>
        have hlp : ¬ p <+: lk := by
          intro hp
          refine hall fun k v h => ?_
          rw [ht0] at h
          obtain ⟨rfl, rfl⟩ := h
          exact hp
        refine ⟨lk, lv, rfl, (hI.has_iff _ _).1 (hsub lk lv (by rw [ht0]; exact ⟨rfl, rfl⟩)), hlp, List.Pairwise.nil, fun k v => ?_⟩
        constructor
        · intro h; cases h
        · rintro ⟨h, hp⟩
          have := h2 k v ((hI.has_iff k v).2 h) hp
          rw [ht0] at this
          obtain ⟨rfl, rfl⟩ := this
          exact absurd hp hlp

/-- Every reachable state has a listing of the keys with a prefix. -/
theorem Run.listing (h : Run env Calm s σ) (p : Key) : ∃ l, Listing σ.map p l := by
  obtain ⟨t, seen, hI⟩ := h.inv
  refine ⟨t.leaves.filter fun x => p.isPrefixOf x.1, (T.leaves_sorted hI.mem.core.wf).filter _, fun k v => ?_⟩
  rw [List.mem_filter, T.mem_leaves, hI.has_iff, List.isPrefixOf_iff_prefix]

/-! ## Executions without finalized deletes -/

/-- No delete is finalized. -/
def InsertOnly (s : Sys) (act : Act) : Prop := Calm s act ∧ ¬ s.DelPub act

theorem Run.insertOnly (h : Run env InsertOnly s σ) : ∃ t seen, Inv env s σ t seen ∧ t.Dense := by
  induction h with
  | init n => exact ⟨_, _, new_inv env n, trivial⟩
  | reload _ hs ih =>
    obtain ⟨t, seen, hI, hd⟩ := ih
    exact ⟨t, _, restore_inv hI hs, hd⟩
  | step _ h1 h2 h3 ih =>
    obtain ⟨t, seen, hI, hd⟩ := ih
    rcases exec_inv hI h1 h2.1 h3 with ⟨s', ev, t', seen', e, hI', _, hd'⟩ | ⟨e, he, _⟩
    · injection e with e; injection e with e1 e2; subst e1 e2
      exact ⟨t', seen', hI', hd'.1 h2.2 hd⟩
    · cases he

theorem Run.insertOnly_calm (h : Run env InsertOnly s σ) : Run env Calm s σ := h.mono fun _ _ h => h.1

/-! ## Minimum and maximum -/

/-- Minimum and maximum of a subtree. -/
theorem minKey_held {P st b0 t0 q0 d} {p : Key} (hh : Held P st t0 q0) (hps : partialSearch st p = .ok (wordOf b0 t0, d)) :
    ∃ N, ∀ n ≥ N, minKey st n p = .ok (leafAnswer t0.first) := by
  unfold minKey
  simp only [bind, Except.bind]
  rw [hps]
  simp only
  rw [hh.isLeaf]
  cases ht0 : t0 with
  | empty => exact ⟨0, fun n _ => by rw [if_pos (by rfl)]; rfl⟩
  | leaf k v =>
    refine ⟨0, fun n _ => ?_⟩
    rw [if_neg (by rw [← ht0, hh.zero, ht0]; simp)]
    simp [T.isLf, T.first, leafAnswer, wordOf, pure, Except.pure]
  | node =>
    rw [ht0] at hh
    obtain ⟨N, hN⟩ := minLoop_tree hh rfl
    refine ⟨N, fun n hn => ?_⟩
    rw [if_neg (by rw [hh.zero]; simp)]
    simp only [T.isLf, Bool.false_eq_true, if_false]
    exact hN n hn b0

theorem maxKey_held {P st b0 t0 q0 d} {p : Key} (hh : Held P st t0 q0) (hps : partialSearch st p = .ok (wordOf b0 t0, d)) :
    ∃ N, ∀ n ≥ N, maxKey st n p = .ok (leafAnswer t0.last) := by
  unfold maxKey
  simp only [bind, Except.bind]
  rw [hps]
  simp only
  rw [hh.isLeaf]
  cases ht0 : t0 with
  | empty => exact ⟨0, fun n _ => by rw [if_pos (by rfl)]; rfl⟩
  | leaf k v =>
    refine ⟨0, fun n _ => ?_⟩
    rw [if_neg (by rw [← ht0, hh.zero, ht0]; simp)]
    simp [T.isLf, T.last, leafAnswer, wordOf, pure, Except.pure]
  | node =>
    rw [ht0] at hh
    obtain ⟨N, hN⟩ := maxLoop_tree hh rfl
    refine ⟨N, fun n hn => ?_⟩
    rw [if_neg (by rw [hh.zero]; simp)]
    simp only [T.isLf, Bool.false_eq_true, if_false]
    exact hN n hn b0

end Radix
