import Verif.SerialProof
/-!
# Loading the beginning of a written state

The readers behave on the beginning of the data as on all of it, up to the point where the data ends.
-/
set_option autoImplicit false
namespace Radix

theorem readLine_extend : ∀ {p l r : Bytes} (q : Bytes), readLine p = some (l, r) → readLine (p ++ q) = some (l, r ++ q) := by
  intro p
  induction p with
  | nil => intro l r q h; cases h
  | cons c p ih =>
    intro l r q h
    simp only [readLine, List.cons_append] at h ⊢
    split at h
    · rename_i hc
      cases h
      rw [if_pos hc]
    · rename_i hc
      rw [if_neg hc]
      cases hr : readLine p with
      | none => rw [hr] at h; cases h
      | some x =>
        obtain ⟨l', r'⟩ := x
        rw [hr] at h
        rw [ih q hr]
        cases h
        rfl

theorem readFull_extend {n : Nat} {p b r : Bytes} (q : Bytes) (h : readFull n p = some (b, r)) : readFull n (p ++ q) = some (b, r ++ q) := by
  unfold readFull at h ⊢
  split at h
  · rename_i hn
    cases h
    rw [if_pos (by rw [List.length_append]; omega), List.take_append_of_le_length hn, List.drop_append_of_le_length hn]
  · cases h

theorem readItems_extend : ∀ {n : Nat} {p r : Bytes} {l : List Item} (q : Bytes), readItems n p = some (l, r) → readItems n (p ++ q) = some (l, r ++ q) := by
  intro n
  induction n with
  | zero => intro p r l q h; cases h; rfl
  | succ n ih =>
    intro p r l q h
    simp only [readItems] at h ⊢
    cases hr : readFull 8 p with
    | none => rw [hr] at h; cases h
    | some x =>
      obtain ⟨b, r1⟩ := x
      rw [hr] at h
      rw [readFull_extend q hr]
      simp only at h ⊢
      cases hi : readItems n r1 with
      | none => rw [hi] at h; cases h
      | some y =>
        obtain ⟨l1, r2⟩ := y
        rw [hi] at h
        rw [ih q hi]
        cases h
        rfl

/-- How a reader's result on the beginning of the data determines its result on all of it; `f` adds the rest. -/
def Extends {α : Type} (f : α → α) (a b : Except LoadErr α) : Prop :=
  (∀ x, a = .ok x → b = .ok (f x)) ∧ (a = .error .panic → b = .error .panic)

theorem Extends.err {α : Type} {f : α → α} {b : Except LoadErr α} : Extends f (.error .err) b := ⟨fun _ h => (by cases h), fun h => (by cases h)⟩

theorem Extends.ok {α : Type} {f : α → α} (x : α) : Extends f (.ok x) (.ok (f x)) := ⟨fun _ h => (by cases h; rfl), fun h => (by cases h)⟩

theorem Extends.panic {α : Type} {f : α → α} : Extends f (.error .panic) (.error .panic) := ⟨fun _ h => (by cases h), fun _ => rfl⟩

theorem loadRecycler_extend (al : Alloc) (values p q : Bytes) :
    Extends (fun x => (x.1, x.2 ++ q)) (loadRecycler al values p) (loadRecycler al values (p ++ q)) := by
  unfold loadRecycler
  cases splitSpace values with
  | none => exact .err
  | some w =>
    obtain ⟨w1, w2⟩ := w
    simp only
    split
    · exact .panic
    · cases hi : readItems (parseInt w2).toNat p with
      | none => exact .err
      | some y =>
        obtain ⟨l1, r2⟩ := y
        rw [readItems_extend q hi]
        exact .ok (_, r2)

theorem loadAlloc_extend (q : Bytes) : ∀ (f f' : Nat) (al : Alloc) (p : Bytes), f ≤ f' →
    Extends (fun x => (x.1, x.2 ++ q)) (loadAlloc f al p) (loadAlloc f' al (p ++ q)) := by
  intro f
  induction f with
  | zero => intro f' al p _; exact .err
  | succ f ih =>
    intro f' al p hf
    obtain ⟨g, rfl⟩ : ∃ g, f' = g + 1 := ⟨f' - 1, by omega⟩
    have hg : f ≤ g := by omega
    unfold loadAlloc
    cases hr : readLine p with
    | none => exact .err
    | some x =>
      obtain ⟨l, r⟩ := x
      rw [readLine_extend q hr]
      simp only
      split
      · exact .ok (al, r)
      · cases splitSpace l with
        | none => exact .err
        | some w =>
          obtain ⟨key, values⟩ := w
          simp only
          split
          · exact ih _ _ _ hg
          · split
            · exact ih _ _ _ hg
            · split
              · exact ih _ _ _ hg
              · split
                · have h1 := loadRecycler_extend al values r q
                  cases hl : loadRecycler al values r with
                  | error e =>
                    cases e with
                    | err => exact .err
                    | panic => rw [h1.2 hl]; exact .panic
                  | ok y =>
                    rw [h1.1 y hl]
                    exact ih _ _ _ hg
                · exact ih _ _ _ hg

theorem Extends.ite {α : Type} {f : α → α} {c : Prop} [Decidable c] {a a' b b' : Except LoadErr α} (h : c → Extends f a b) (h' : ¬ c → Extends f a' b') :
    Extends f (if c then a else a') (if c then b else b') := by
  by_cases hc : c
  · rw [if_pos hc, if_pos hc]; exact h hc
  · rw [if_neg hc, if_neg hc]; exact h' hc

theorem loadLine_extend (dc : Bytes → Option Bytes) (L : Loaded) (cur : Int) (key values p q : Bytes) :
    Extends (fun x => (x.1, x.2.1, x.2.2 ++ q)) (loadLine dc L cur key values p) (loadLine dc L cur key values (p ++ q)) := by
  unfold loadLine
  simp only
  refine .ite (fun _ => .ok (_, _, p)) fun _ => ?_
  refine .ite (fun _ => .ite (fun _ => .err) fun _ => .ok (_, _, p)) fun _ => ?_
  refine .ite (fun _ => .ok (_, _, p)) fun _ => ?_
  refine .ite (fun _ => .ite (fun _ => .panic) fun _ => .ok (_, _, p)) fun _ => ?_
  refine .ite (fun _ => .ok (_, _, p)) fun _ => ?_
  refine .ite (fun _ => .ite (fun _ => .panic) fun _ => .ok (_, _, p)) fun _ => ?_
  refine .ite (fun _ => .ite (fun _ => .err) fun _ => .ite (fun _ => .panic) fun _ => ?_) fun _ => ?_
  · have h1 := loadAlloc_extend q (p.length + 1) ((p ++ q).length + 1) { L.allocs (parseUint values) with recycler := fun _ => [] } p
      (by rw [List.length_append]; omega)
    cases hl : loadAlloc (p.length + 1) { L.allocs (parseUint values) with recycler := fun _ => [] } p with
    | error e =>
      cases e with
      | err => exact .err
      | panic => rw [h1.2 hl]; exact .panic
    | ok y =>
      rw [h1.1 y hl]
      exact .ok (_, _, y.2)
  refine .ite (fun _ => .ite (fun _ => .err) fun _ => .ok (_, _, p)) fun _ => ?_
  refine .ite (fun _ => .ite (fun _ => .err) fun _ => .ite (fun _ => .panic) fun _ => ?_) fun _ => .ok (_, _, p)
  cases hr : readFull (parseUint values) p with
  | none => exact .err
  | some y =>
    obtain ⟨b, r⟩ := y
    rw [readFull_extend q hr]
    simp only
    cases dc b with
    | none => exact .err
    | some d => exact .ok (_, _, r)

theorem readLine_none : ∀ {p : Bytes}, nl ∉ p → readLine p = none := by
  intro p
  induction p with
  | nil => intro _; rfl
  | cons c p ih =>
    intro h
    simp only [List.mem_cons, not_or] at h
    rw [readLine, if_neg (Ne.symm h.1), ih h.2]
    rfl

/-- The beginning of a line and what follows: it ends within the line, or contains it. -/
theorem prefix_line : ∀ {l p rest : Bytes}, nl ∉ l → p <+: l ++ nl :: rest → nl ∉ p ∨ ∃ p', p = l ++ nl :: p' ∧ p' <+: rest := by
  intro l
  induction l with
  | nil =>
    intro p rest _ h
    cases p with
    | nil => exact .inl (by simp)
    | cons c p =>
      rw [List.nil_append, List.cons_prefix_cons] at h
      obtain ⟨rfl, h⟩ := h
      exact .inr ⟨p, rfl, h⟩
  | cons d l ih =>
    intro p rest hl h
    simp only [List.mem_cons, not_or] at hl
    cases p with
    | nil => exact .inl (by simp)
    | cons c p =>
      rw [List.cons_append, List.cons_prefix_cons] at h
      obtain ⟨rfl, h⟩ := h
      rcases ih hl.2 h with h | ⟨p', rfl, h'⟩
      · exact .inl (by simp only [List.mem_cons, not_or]; exact ⟨hl.1, h⟩)
      · exact .inr ⟨p', rfl, h'⟩

/-- The data ends too early: an error, or a tree as far as it was read. -/
def Cut (P : Loaded → Prop) (r : Except LoadErr Loaded) : Prop := r = .error .err ∨ ∃ L, r = .ok L ∧ P L

theorem Reads.cut {dc : Bytes → Option Bytes} {P : Loaded → Prop} {n : Nat} {L L' : Loaded} {cur cur' : Int} {input rest : Bytes}
    (h : Reads dc P n L cur input L' cur' rest) (hend : ∀ f p, p <+: rest → Cut P (loadLoop dc f L' cur' p)) :
    ∀ f p, p <+: input → Cut P (loadLoop dc f L cur p) := by
  induction h with
  | refl => exact hend
  | @line n L L1 L2 cur cur1 cur2 key values rest rest1 rest2 h1 h2 h3 h4 h5 _ ih =>
    intro f p hp
    cases f with
    | zero => exact .inl rfl
    | succ f =>
      rw [show key ++ sp :: (values ++ nl :: rest) = (key ++ sp :: values) ++ nl :: rest by simp] at hp
      have hline : nl ∉ key ++ sp :: values := by
        simp only [List.mem_append, List.mem_cons, not_or]
        exact ⟨h2, by decide, h3⟩
      rcases prefix_line hline hp with hp | ⟨p', rfl, hp'⟩
      · rw [loadLoop, readLine_none hp]
        exact .inr ⟨L, rfl, h4⟩
      · rw [loadLoop, readLine_append hline]
        simp only
        rw [splitSpace_append h1]
        simp only
        obtain ⟨q, rfl⟩ := hp'
        have hx := loadLine_extend dc L cur key values p' q
        rw [h5] at hx
        cases hl : loadLine dc L cur key values p' with
        | error e =>
          cases e with
          | err => exact .inl rfl
          | panic => exact absurd (hx.2 hl) (by simp)
        | ok x =>
          obtain ⟨L3, cur3, r3⟩ := x
          have hx' := hx.1 _ hl
          simp only [Except.ok.injEq, Prod.mk.injEq] at hx'
          obtain ⟨rfl, rfl, rfl⟩ := hx'
          exact ih hend f r3 (List.prefix_append _ _)

/-- Loading the beginning of a written state. -/
theorem loadState_cut {enc : Bytes → Bytes} {dc : Bytes → Option Bytes} (hc : Codec enc dc) {st : St} (hfit : Fits st) (empty : Nat → Bool)
    {next : Nat} (hn : next ≤ maxUint64) {order : List Nat} (ho : ∀ b ∈ order, b < maxBlockCount) {p : Bytes}
    (hp : p <+: stateBytes enc empty st next order) : Cut (Loaded.PartOf st next order) (loadState dc p) := by
  obtain ⟨cur, h⟩ := reads_state hc hfit empty hn ho
  refine h.cut (fun f p hp => ?_) _ p hp
  rw [List.prefix_nil.1 hp]
  cases f with
  | zero => exact .inl rfl
  | succ f => exact .inr ⟨_, rfl, .inr (.inr ⟨order, [], by simp, rfl⟩)⟩

end Radix
