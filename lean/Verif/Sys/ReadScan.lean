import Verif.Sys.ReadSearch
/-!
# Walking over the leaves while other operations run
-/
set_option autoImplicit false
namespace Radix
open T

/-- The keys in the list are in order, were each stored at some moment with the value in the list, and include every key of the region `R`
that was stored at every moment. -/
structure Collected (S : T → Prop) (R : Key → Prop) (l : List (Key × Word)) : Prop where
  sorted : l.Pairwise fun x y => x.1 < y.1
  sound : ∀ x ∈ l, R x.1 ∧ Once S x.1 x.2
  complete : ∀ k, Always S k → R k → ∃ v, (k, v) ∈ l

section
variable {S S' : T → Prop} {R R' R1 R2 : Key → Prop} {l l1 l2 : List (Key × Word)}

theorem Collected.mono (h : Collected S R l) (hS : ∀ x, S x → S' x) : Collected S' R l :=
  ⟨h.sorted, fun x hx => ⟨(h.sound x hx).1, (h.sound x hx).2.mono hS⟩, fun k hk => h.complete k (hk.anti hS)⟩

theorem Collected.nil (h : ∀ k, Always S k → ¬ R k) : Collected S R [] :=
  ⟨List.Pairwise.nil, fun x hx => by simp at hx, fun k hk hr => absurd hr (h k hk)⟩

theorem Collected.append (h1 : Collected S R1 l1) (h2 : Collected S R2 l2) (hlt : ∀ k k', R1 k → R2 k' → k < k') :
    Collected S (fun k => R1 k ∨ R2 k) (l1 ++ l2) := by
  refine ⟨List.pairwise_append.2 ⟨h1.sorted, h2.sorted, fun x hx y hy => hlt _ _ (h1.sound x hx).1 (h2.sound y hy).1⟩, ?_, ?_⟩
  · intro x hx
    rcases List.mem_append.1 hx with h | h
    · exact ⟨.inl (h1.sound x h).1, (h1.sound x h).2⟩
    · exact ⟨.inr (h2.sound x h).1, (h2.sound x h).2⟩
  · rintro k hk (h | h)
    · obtain ⟨v, hv⟩ := h1.complete k hk h
      exact ⟨v, List.mem_append_left _ hv⟩
    · obtain ⟨v, hv⟩ := h2.complete k hk h
      exact ⟨v, List.mem_append_right _ hv⟩

theorem Collected.widen (h : Collected S R l) (h1 : ∀ k, R k → R' k) (h2 : ∀ k, Always S k → R' k → R k) : Collected S R' l :=
  ⟨h.sorted, fun x hx => ⟨h1 _ (h.sound x hx).1, (h.sound x hx).2⟩, fun k hk hr => h.complete k hk (h2 k hk hr)⟩
end

/-- The keys below the children of path `p` at the bytes `cs`. -/
def Reg (p : Key) (cs : List UInt8) (k : Key) : Prop := ∃ c ∈ cs, p ++ [c] <+: k

theorem lt_of_kids {p k k' : Key} {c d : UInt8} (h : c < d) (h1 : p ++ [c] <+: k) (h2 : p ++ [d] <+: k') : k < k' := by
  obtain ⟨r, rfl⟩ := h1
  obtain ⟨s, rfl⟩ := h2
  simpa using lt_of_branch h r s p

theorem Reg.lt {p : Key} {cs ds : List UInt8} (h : ∀ c ∈ cs, ∀ d ∈ ds, c < d) {k k' : Key} (h1 : Reg p cs k) (h2 : Reg p ds k') : k < k' := by
  obtain ⟨c, hc, hk⟩ := h1
  obtain ⟨d, hd, hk'⟩ := h2
  exact lt_of_kids (h c hc d hd) hk hk'

theorem Reg.prefix {p : Key} {cs : List UInt8} {k : Key} (h : Reg p cs k) : p <+: k := by
  obtain ⟨c, _, h⟩ := h
  exact (List.prefix_append _ _).trans h

@[simp] theorem Reg_nil {p k : Key} : ¬ Reg p [] k := by rintro ⟨c, h, _⟩; simp at h

theorem Reg_append {p k : Key} {cs ds : List UInt8} : Reg p (cs ++ ds) k ↔ Reg p cs k ∨ Reg p ds k := by
  unfold Reg
  constructor
  · rintro ⟨c, hc, h⟩
    rcases List.mem_append.1 hc with h1 | h1
    · exact .inl ⟨c, h1, h⟩
    · exact .inr ⟨c, h1, h⟩
  · rintro (⟨c, hc, h⟩ | ⟨c, hc, h⟩)
    · exact ⟨c, List.mem_append_left _ hc, h⟩
    · exact ⟨c, List.mem_append_right _ hc, h⟩

theorem Reg_cons {p k : Key} {c : UInt8} {ds : List UInt8} : Reg p (c :: ds) k ↔ p ++ [c] <+: k ∨ Reg p ds k := by
  unfold Reg
  simp only [List.mem_cons]
  constructor
  · rintro ⟨d, rfl | hc, h⟩
    · exact .inl h
    · exact .inr ⟨d, hc, h⟩
  · rintro (h | ⟨d, hc, h⟩)
    · exact ⟨c, .inl rfl, h⟩
    · exact ⟨d, .inr hc, h⟩

section
variable {env : Env} {a : Nat} {L : Prop} {E : Panic → Prop}

section
variable {raw : Word} {q : Key} {n : Nat} {pfx : List UInt8} {big : Bool} {ch : UInt8 → T}

/-- The result of the scan of the children at the bytes `cs`. -/
def Scanned (S : T → Prop) (p : Key) (i : Nat) (cs : List UInt8) (r : List Word × Option (Nat × Word)) : Prop :=
  ∃ l, r.1 = vals l ∧
    ((r.2 = none ∧ Collected S (Reg p cs) l) ∨
      ∃ cs1 c cs2 w n pfx big ch, cs = cs1 ++ c :: cs2 ∧ r.2 = some (i + cs1.length, w) ∧ Collected S (Reg p cs1) l ∧ Ref S w (p ++ [c]) n pfx big ch)

theorem safe_scanKids : ∀ {cs pre : List UInt8} {S : T → Prop}, Ref S raw q n pfx big ch → slotsOf big ch = pre ++ cs →
    Safe env a L E (fun S' r => Scanned S' (q ++ pfx) pre.length cs r) (scanKidsP (kidSlice n pfx) cs.length pre.length) S
  | [], pre, S, hr, hs => ⟨[], rfl, .inl ⟨rfl, .nil fun k _ => Reg_nil⟩⟩
  | c :: cs, pre, S, hr, hs => by
    have hsort : (pre ++ c :: cs).Pairwise (· < ·) := by rw [← hs]; exact slotsOf_sorted big ch
    have hsort' := (List.pairwise_append.1 hsort).2.1
    have hcs : ∀ d ∈ cs, c < d := fun d hd => List.rel_of_pairwise_cons hsort' hd
    refine Safe.bind (safe_kid hr hs) ?_
    rintro S1 w hS1 ⟨h1, -, -⟩
    have ih := safe_scanKids (cs := cs) (pre := pre ++ [c]) (hr.mono hS1) (by rw [hs]; simp)
    rw [List.length_append, List.length_singleton] at ih
    cases h1 with
    | none h no =>
      rw [if_pos h]
      refine ih.mono ?_
      rintro S2 r hS2 ⟨l, hl, h⟩
      have hno : ∀ k, Always S2 k → ¬ (q ++ pfx ++ [c] <+: k) := fun k hk => no k (hk.anti hS2)
      refine ⟨l, hl, ?_⟩
      rcases h with ⟨h1, h2⟩ | ⟨cs1, d, cs2, w, n', pfx', big', ch', h1, h2, h3, h4⟩
      · refine .inl ⟨h1, h2.widen (fun k h => Reg_cons.2 (.inr h)) fun k hk h => ?_⟩
        rcases Reg_cons.1 h with h | h
        · exact absurd h (hno k hk)
        · exact h
      · refine .inr ⟨c :: cs1, d, cs2, w, n', pfx', big', ch', by rw [h1]; rfl, by rw [h2, List.length_cons]; congr 2; omega,
          h3.widen (fun k h => Reg_cons.2 (.inr h)) fun k hk h => ?_, h4⟩
        rcases Reg_cons.1 h with h | h
        · exact absurd h (hno k hk)
        · exact h
    | leaf k v l hv hp st only =>
      have h0 : w ≠ 0 := by rintro rfl; exact absurd l (by decide)
      rw [if_neg h0, if_pos l]
      refine Safe.bind ih ?_
      rintro S2 r hS2 ⟨l', hl', h⟩
      have hone : Collected S2 (fun k => q ++ pfx ++ [c] <+: k) [(k, v)] := by
        refine ⟨List.pairwise_singleton .., ?_, ?_⟩
        · intro x hx
          obtain rfl := List.mem_singleton.1 hx
          exact ⟨hp, st.mono hS2⟩
        · intro k' hk hp'
          exact ⟨v, by rw [only k' (hk.anti hS2) hp']; simp⟩
      have hcol : ∀ {ds : List UInt8}, (∀ d ∈ ds, c < d) → Collected S2 (Reg (q ++ pfx) ds) l' → Collected S2 (Reg (q ++ pfx) (c :: ds)) ((k, v) :: l') := by
        intro ds hds hc
        exact (hone.append hc fun k k' h1 ⟨d, hd, h2⟩ => lt_of_kids (hds d hd) h1 h2).widen (fun k h => Reg_cons.2 h) fun k _ h => Reg_cons.1 h
      refine ⟨(k, v) :: l', by simp [vals, hv, hl'], ?_⟩
      rcases h with ⟨h1, h2⟩ | ⟨cs1, d, cs2, w, n', pfx', big', ch', h1, h2, h3, h4⟩
      · exact .inl ⟨h1, hcol hcs h2⟩
      · exact .inr ⟨c :: cs1, d, cs2, w, n', pfx', big', ch', by rw [h1]; rfl,
          by rw [List.length_cons]; exact h2.trans (by congr 2; omega),
          hcol (fun d hd => hcs d (by rw [h1]; exact List.mem_append_left _ hd)) h3, h4⟩
    | node n' pfx' big' ch' r =>
      rw [if_neg r.ne, if_neg (by rw [r.leaf]; simp)]
      exact ⟨[], rfl, .inr ⟨[], c, cs, w, n', pfx', big', ch', rfl, rfl, .nil fun k _ => Reg_nil, r⟩⟩

/-- The result of the search for the next child that is not empty. -/
def Skipped (S : T → Prop) (p : Key) (i : Nat) (cs : List UInt8) (k : Nat) : Prop :=
  ∃ cs1 cs2, cs = cs1 ++ cs2 ∧ k = i + cs1.length ∧ ∀ k, Always S k → ¬ Reg p cs1 k

theorem safe_nextKid : ∀ {cs pre : List UInt8} {S : T → Prop}, Ref S raw q n pfx big ch → slotsOf big ch = pre ++ cs →
    Safe env a L E (fun S' k => Skipped S' (q ++ pfx) pre.length cs k) (nextKidP (kidSlice n pfx) cs.length pre.length) S
  | [], pre, S, hr, hs => ⟨[], [], rfl, rfl, fun k _ => Reg_nil⟩
  | c :: cs, pre, S, hr, hs => by
    refine Safe.bind (safe_kid hr hs) ?_
    rintro S1 w hS1 ⟨h1, -, -⟩
    have ih := safe_nextKid (cs := cs) (pre := pre ++ [c]) (hr.mono hS1) (by rw [hs]; simp)
    rw [List.length_append, List.length_singleton] at ih
    by_cases h0 : w = 0
    · rw [if_neg (by simpa using h0)]
      refine ih.mono ?_
      rintro S2 k hS2 ⟨cs1, cs2, e1, e2, e3⟩
      refine ⟨c :: cs1, cs2, by rw [e1]; rfl, by rw [e2, List.length_cons]; omega, fun k hk h => ?_⟩
      rcases Reg_cons.1 h with h | h
      · cases h1 with
        | none _ no => exact no k (hk.anti hS2) h
        | leaf k v l => subst h0; exact absurd l (by decide)
        | node n' pfx' big' ch' r => exact r.ne h0
      · exact e3 k hk h
    · rw [if_pos h0]
      exact ⟨[], c :: cs, rfl, rfl, fun k _ => Reg_nil⟩

theorem safe_afterKid {cs pre : List UInt8} {c : UInt8} {S : T → Prop} (hr : Ref S raw q n pfx big ch) (hs : slotsOf big ch = pre ++ c :: cs) :
    Safe env a L E (fun S' k => Skipped S' (q ++ pfx) (pre.length + 1) cs k) (afterKidP (kidSlice n pfx) (cnt big ch) pre.length) S := by
  have hc := cnt_split hs
  simp only [List.length_cons] at hc
  unfold afterKidP
  split
  · have := safe_nextKid (env := env) (a := a) (L := L) (E := E) (cs := cs) (pre := pre ++ [c]) hr (by rw [hs]; simp)
    rw [List.length_append, List.length_singleton] at this
    rw [show cnt big ch - (pre.length + 1) = cs.length by omega]
    exact this
  · exact ⟨[], cs, rfl, rfl, fun k _ => Reg_nil⟩

end

/-- The stack below a node at path `p`; `R`: the keys still to come from the stack. -/
inductive Frames (S : T → Prop) : Key → List (Word × Nat) → (Key → Prop) → Prop
  | nil (p : Key) : Frames S p [] fun _ => False
  | cons {p q : Key} {raw : Word} {n : Nat} {pfx : List UInt8} {big : Bool} {ch : UInt8 → T} {pre cs : List UInt8} {c : UInt8} {st : List (Word × Nat)}
      {R : Key → Prop} (r : Ref S raw q n pfx big ch) (hs : slotsOf big ch = pre ++ cs) (hp : q ++ pfx ++ [c] <+: p) (hc : ∀ d ∈ cs, c < d)
      (h : Frames S q st R) : Frames S p ((raw, pre.length) :: st) fun k => Reg (q ++ pfx) cs k ∨ R k

theorem Frames.mono {S S' : T → Prop} (hS : ∀ x, S x → S' x) {p st R} (h : Frames S p st R) : Frames S' p st R := by
  induction h with
  | nil p => exact .nil p
  | cons r hs hp hc _ ih => exact .cons (r.mono hS) hs hp hc ih

theorem Frames.extend {S : T → Prop} {p p' st R} (h : Frames S p st R) (hp : p <+: p') : Frames S p' st R := by
  cases h with
  | nil p => exact .nil p'
  | cons r hs hp' hc h => exact .cons r hs (hp'.trans hp) hc h

theorem Frames.lt {S : T → Prop} {p st R} (h : Frames S p st R) : ∀ {k k' : Key}, p <+: k → R k' → k < k' := by
  induction h with
  | nil p => intro k k' _ h; exact h.elim
  | @cons p q raw n pfx big ch pre cs c st R r hs hp hc _ ih =>
    rintro k k' hk (⟨d, hd, h⟩ | h)
    · exact lt_of_kids (hc d hd) (hp.trans hk) h
    · exact ih (((List.prefix_append q (pfx ++ [c])).trans (by simpa using hp)).trans hk) h

/-- The region of a node with the children `cs` left, after the leaves before child `c`, with that child and the rest `ds2`. -/
theorem Collected.visit {S : T → Prop} {q : Key} {pfx cs1 ds1 ds2 : List UInt8} {c : UInt8} {R : Key → Prop} {l0 l1 : List (Key × Word)}
    {w : Word} {n' : Nat} {pfx' : List UInt8} {big' : Bool} {ch' : UInt8 → T}
    (hsort : (cs1 ++ c :: (ds1 ++ ds2)).Pairwise (· < ·)) (h0 : Collected S (Reg (q ++ pfx) cs1) l0) (r : Ref S w (q ++ pfx ++ [c]) n' pfx' big' ch')
    (h1 : Collected S (fun k => Reg (q ++ pfx ++ [c] ++ pfx') (slotsOf big' ch') k ∨ (Reg (q ++ pfx) ds2 k ∨ R k)) l1)
    (hno : ∀ k, Always S k → ¬ Reg (q ++ pfx) ds1 k) (hR : ∀ {k k' : Key}, q <+: k → R k' → k < k') :
    Collected S (fun k => Reg (q ++ pfx) (cs1 ++ c :: (ds1 ++ ds2)) k ∨ R k) (l0 ++ l1) := by
  have hs := List.pairwise_append.1 hsort
  refine (h0.append h1 ?_).widen ?_ ?_
  · rintro k k' h (h' | h' | h')
    · obtain ⟨d, hd, h⟩ := h
      exact lt_of_kids (hs.2.2 d hd c (by simp)) h ((List.prefix_append _ _).trans h'.prefix)
    · exact Reg.lt (fun c1 h1 d hd => hs.2.2 c1 h1 d (by simp [hd])) h h'
    · exact hR ((List.prefix_append _ _).trans h.prefix) h'
  · rintro k (h | h | h | h)
    · exact .inl (Reg_append.2 (.inl h))
    · exact .inl (Reg_append.2 (.inr (Reg_cons.2 (.inl ((List.prefix_append _ _).trans h.prefix)))))
    · exact .inl (Reg_append.2 (.inr (Reg_cons.2 (.inr (Reg_append.2 (.inr h))))))
    · exact .inr h
  · rintro k hk (h | h)
    · rcases Reg_append.1 h with h | h
      · exact .inl h
      · rcases Reg_cons.1 h with h | h
        · exact .inr (.inl (r.covers k hk h))
        · rcases Reg_append.1 h with h | h
          · exact absurd h (hno k hk)
          · exact .inr (.inr (.inl h))
    · exact .inr (.inr (.inr h))

/-- The loop of `Count`. -/
theorem safe_countLoop : ∀ (fuel : Nat) {S : T → Prop} {c : Counter} {q : Key} {n : Nat} {pfx : List UInt8} {big : Bool} {ch : UInt8 → T}
    {pre cs : List UInt8} {R : Key → Prop}, Ref S c.raw q n pfx big ch → slotsOf big ch = pre ++ cs → c.nextChild = pre.length → Frames S q c.stack R →
    Safe env a L (· = .fuel) (fun S' c' => ∃ l, c'.leaves = c.leaves + l.length ∧ Collected S' (fun k => Reg (q ++ pfx) cs k ∨ R k) l) (countLoopP fuel c) S
  | 0, _, _, _, _, _, _, _, _, _, _, _, _, _, _ => rfl
  | fuel + 1, S, c, q, n, pfx, big, ch, pre, cs, R, hr, hs, hn, hf => by
    have hcnt := cnt_split hs
    have hsort : (pre ++ cs).Pairwise (· < ·) := by rw [← hs]; exact slotsOf_sorted big ch
    have hsort' := (List.pairwise_append.1 hsort).2.1
    unfold countLoopP
    refine Safe.bind (safe_nodeData hr) ?_
    rintro S1 _ hS1 rfl
    have hr1 := hr.mono hS1
    refine Safe.bind (safe_skip hr1) ?_
    rintro S2 _ hS2 rfl
    have hr2 := hr1.mono hS2
    simp only
    generalize hcv : c.visit (nodePlen c.raw) pfx.length (prefixSlots pfx.length) (nodeCount c.raw) = c1
    have hn1 : c1.nextChild = pre.length := by rw [← hcv, ← hn]; unfold Counter.visit; split <;> rfl
    have hl1 : c1.leaves = c.leaves := by rw [← hcv]; unfold Counter.visit; split <;> rfl
    have hst1 : c1.stack = c.stack := by rw [← hcv]; unfold Counter.visit; split <;> rfl
    have hraw1 : c1.raw = c.raw := by rw [← hcv]; unfold Counter.visit; split <;> rfl
    rw [hn1, hr.fields.count, show cnt big ch - pre.length = cs.length by omega]
    refine Safe.bind (safe_scanKids hr2 hs) ?_
    rintro S3 ⟨vs, r⟩ hS3 ⟨l0, hl0, h⟩
    have hr3 := hr2.mono hS3
    have hf3 := ((hf.mono hS1).mono hS2).mono hS3
    simp only at hl0
    rcases h with ⟨h1, h2⟩ | ⟨cs1, d, cs2, w, n', pfx', big', ch', h1, h2, h3, h4⟩
    · simp only at h1
      subst h1
      simp only [hst1]
      cases hcs : c.stack with
      | nil =>
        refine ⟨l0, by simp [hl1, hl0], ?_⟩
        rw [hcs] at hf
        cases hf
        exact h2.widen (fun k h => .inl h) fun k _ h => by simpa using h
      | cons p st =>
        rw [hcs] at hf3
        cases hf3 with
        | @cons _ q' raw' n' pfx' big' ch' pre' cs' d _ R' r' hs' hp' hc' hf' =>
        simp only
        refine (safe_countLoop fuel (c := { c1 with leaves := c1.leaves + vs.length, raw := raw', nextChild := pre'.length, stack := st }) r' hs' rfl hf').mono ?_
        rintro S4 c' hS4 ⟨l1, hl1', hcol⟩
        refine ⟨l0 ++ l1, by rw [hl1']; simp [hl1, hl0]; omega, ?_⟩
        refine (h2.mono hS4).append hcol ?_
        intro k k' hk hk'
        exact Frames.lt hf ((List.prefix_append _ _).trans hk.prefix) (by rw [hcs] at hf; exact hk')
    · simp only at h2
      subst h2
      simp only
      subst h1
      rw [← List.length_append]
      refine Safe.bind (safe_afterKid (pre := pre ++ cs1) (c := d) (cs := cs2) hr3 (by rw [hs]; simp)) ?_
      rintro S4 next hS4 ⟨ds1, ds2, e1, e2, e3⟩
      subst e1
      have hnext : next < cnt big ch ↔ ds2 ≠ [] := by
        rw [e2, ← length_slotsOf big ch, hs]
        cases ds2 <;> simp <;> omega
      have hpair := List.pairwise_append.1 hsort'
      have hdlt : ∀ x ∈ ds2, d < x := fun x hx => List.rel_of_pairwise_cons hpair.2.1 (by simp [hx])
      have hf4 := hf3.mono hS4
      have hfr : Frames S4 (q ++ pfx ++ [d]) (if next < cnt big ch then (c1.raw, next) :: c1.stack else c1.stack) (fun k => Reg (q ++ pfx) ds2 k ∨ R k) := by
        rw [hraw1, hst1]
        split
        · have e : next = (pre ++ cs1 ++ d :: ds1).length := by rw [e2]; simp; omega
          rw [e]
          exact .cons (hr3.mono hS4) (by rw [hs]; simp) (List.prefix_refl _) hdlt hf4
        · rename_i hlt
          have : ds2 = [] := by
            rw [hnext] at hlt
            exact Decidable.of_not_not hlt
          subst this
          have := hf4.extend (p' := q ++ pfx ++ [d]) ((List.prefix_append q (pfx ++ [d])).trans (by simp))
          have e : (fun k => Reg (q ++ pfx) [] k ∨ R k) = R := by funext k; simp
          rw [e]; exact this
      refine (safe_countLoop fuel (c := { c1 with
        leaves := c1.leaves + vs.length
        nodes := c1.nodes + 1
        stack := if next < cnt big ch then (c1.raw, next) :: c1.stack else c1.stack
        raw := w
        nextChild := 0 }) (h4.mono hS4) (pre := []) (cs := slotsOf big' ch') rfl rfl hfr).mono ?_
      rintro S5 c' hS5 ⟨l1, hl1', hcol⟩
      refine ⟨l0 ++ l1, by rw [hl1']; simp [hl1, hl0]; omega, ?_⟩
      exact Collected.visit hsort' ((h3.mono hS4).mono hS5) ((h4.mono hS4).mono hS5) hcol (fun k hk => e3 k (hk.anti hS5)) fun h1 h2 => hf.lt h1 h2

/-- The result of a walk over the keys with the prefix: either these keys or, when the prefix search stopped at a leaf, the key of that leaf. -/
def Walked (S : T → Prop) (sp : Key) (l : List (Key × Word)) : Prop :=
  Collected S (fun k => sp <+: k) l ∨ ∃ k v, l = [(k, v)] ∧ Once S k v ∧ ∀ k', Always S k' → sp <+: k' → k' = k

theorem Ref.walked {S : T → Prop} {w : Word} {q sp : Key} {n : Nat} {pfx : List UInt8} {big : Bool} {ch : UInt8 → T} (r : Ref S w q n pfx big ch)
    (hq : q <+: sp) (hsp : sp <+: q ++ pfx ∨ q = sp) {l : List (Key × Word)} (h : Collected S (fun k => Reg (q ++ pfx) (slotsOf big ch) k ∨ False) l) :
    Collected S (fun k => sp <+: k) l := by
  refine h.widen ?_ fun k hk hp => .inl (r.covers k hk (hq.trans hp))
  rintro k (h | h)
  · rcases hsp with h' | rfl
    · exact h'.trans h.prefix
    · exact (List.prefix_append _ _).trans h.prefix
  · exact h.elim

/-- `Count`. -/
theorem safe_count (fuel : Nat) (sp : Key) (S : T → Prop) :
    Safe env a L (· = .fuel) (fun S' c => ∃ l, c.leaves = l.length ∧ Walked S' sp l) (countP fuel sp) S := by
  unfold countP
  refine Safe.bind (safe_partialSearch sp S) ?_
  rintro S1 ⟨raw, d⟩ hS1 ⟨h, -⟩
  simp only at h ⊢
  cases h with
  | none h no =>
    rw [if_pos h]
    exact ⟨[], rfl, .inl (.nil no)⟩
  | leaf k v l hv st only =>
    rw [if_neg (by rintro rfl; exact absurd l (by decide)), if_pos l]
    exact ⟨[(k, v)], rfl, .inr ⟨k, v, rfl, st, only⟩⟩
  | node q n pfx big ch r hq hsp =>
    rw [if_neg r.ne, if_neg (by rw [r.leaf]; simp)]
    refine (safe_countLoop fuel (c := { raw := raw, nodes := 1 }) r (pre := []) rfl rfl (.nil q)).mono ?_
    rintro S2 c hS2 ⟨l, hl, hc⟩
    exact ⟨l, by simpa using hl, .inl ((r.mono hS2).walked hq hsp hc)⟩

end

end Radix
