import Verif.Sys.ReadScan
/-!
# Iterators, minimum and maximum while other operations run
-/
set_option autoImplicit false
namespace Radix
open T

/-- The keys in the list are in order and were each stored at some moment with the value in the list; up to the last key in the list, every
key of the region `R` that was stored at every moment is in the list, and if `fin` all of them are. -/
structure Part (S : T → Prop) (R : Key → Prop) (l : List (Key × Word)) (fin : Prop) : Prop where
  sorted : l.Pairwise fun x y => x.1 < y.1
  sound : ∀ x ∈ l, R x.1 ∧ Once S x.1 x.2
  upto : ∀ x ∈ l, ∀ k, Always S k → R k → ¬ x.1 < k → ∃ v, (k, v) ∈ l
  all : fin → ∀ k, Always S k → R k → ∃ v, (k, v) ∈ l

theorem key_lt_asymm {k k' : Key} (h : k < k') : ¬ k' < k := fun h' => List.lt_irrefl k (List.lt_trans h h')

section
variable {S S' : T → Prop} {R R' R1 R2 : Key → Prop} {l l1 l2 : List (Key × Word)} {fin : Prop}

theorem Collected.part (h : Collected S R l) : Part S R l fin := ⟨h.sorted, h.sound, fun _ _ k hk hr _ => h.complete k hk hr, fun _ => h.complete⟩

theorem Part.widen (h : Part S R l fin) (h1 : ∀ k, R k → R' k) (h2 : ∀ k, Always S k → R' k → R k) : Part S R' l fin :=
  ⟨h.sorted, fun x hx => ⟨h1 _ (h.sound x hx).1, (h.sound x hx).2⟩, fun x hx k hk hr => h.upto x hx k hk (h2 k hk hr),
    fun hf k hk hr => h.all hf k hk (h2 k hk hr)⟩

theorem Collected.appendPart (h1 : Collected S R1 l1) (h2 : Part S R2 l2 fin) (hlt : ∀ k k', R1 k → R2 k' → k < k') :
    Part S (fun k => R1 k ∨ R2 k) (l1 ++ l2) fin := by
  refine ⟨List.pairwise_append.2 ⟨h1.sorted, h2.sorted, fun x hx y hy => hlt _ _ (h1.sound x hx).1 (h2.sound y hy).1⟩, ?_, ?_, ?_⟩
  · intro x hx
    rcases List.mem_append.1 hx with h | h
    · exact ⟨.inl (h1.sound x h).1, (h1.sound x h).2⟩
    · exact ⟨.inr (h2.sound x h).1, (h2.sound x h).2⟩
  · rintro x hx k hk (h | h) hle
    · obtain ⟨v, hv⟩ := h1.complete k hk h
      exact ⟨v, List.mem_append_left _ hv⟩
    · rcases List.mem_append.1 hx with hx | hx
      · exact absurd (hlt _ _ (h1.sound x hx).1 h) hle
      · obtain ⟨v, hv⟩ := h2.upto x hx k hk h hle
        exact ⟨v, List.mem_append_right _ hv⟩
  · rintro hf k hk (h | h)
    · obtain ⟨v, hv⟩ := h1.complete k hk h
      exact ⟨v, List.mem_append_left _ hv⟩
    · obtain ⟨v, hv⟩ := h2.all hf k hk h
      exact ⟨v, List.mem_append_right _ hv⟩

theorem Part.stop : Part S R [] False := ⟨List.Pairwise.nil, fun x hx => by simp at hx, fun x hx => by simp at hx, fun h => h.elim⟩

theorem Part.weak {fin' : Prop} (h : Part S R l fin) (hf : fin' → fin) : Part S R l fin' := ⟨h.sorted, h.sound, h.upto, fun h' => h.all (hf h')⟩
end

/-- As `Collected.visit`. -/
theorem Part.visit {S : T → Prop} {q : Key} {pfx cs1 ds1 ds2 : List UInt8} {c : UInt8} {R : Key → Prop} {l0 l1 : List (Key × Word)} {fin : Prop}
    {w : Word} {n' : Nat} {pfx' : List UInt8} {big' : Bool} {ch' : UInt8 → T}
    (hsort : (cs1 ++ c :: (ds1 ++ ds2)).Pairwise (· < ·)) (h0 : Collected S (Reg (q ++ pfx) cs1) l0) (r : Ref S w (q ++ pfx ++ [c]) n' pfx' big' ch')
    (h1 : Part S (fun k => Reg (q ++ pfx ++ [c] ++ pfx') (slotsOf big' ch') k ∨ (Reg (q ++ pfx) ds2 k ∨ R k)) l1 fin)
    (hno : ∀ k, Always S k → ¬ Reg (q ++ pfx) ds1 k) (hR : ∀ {k k' : Key}, q <+: k → R k' → k < k') :
    Part S (fun k => Reg (q ++ pfx) (cs1 ++ c :: (ds1 ++ ds2)) k ∨ R k) (l0 ++ l1) fin := by
  have hs := List.pairwise_append.1 hsort
  refine (h0.appendPart h1 ?_).widen ?_ ?_
  · rintro k k' h (h' | h' | h')
    · obtain ⟨d, hd, h⟩ := h
      exact lt_of_kids (hs.2.2 d hd c (by simp)) h ((List.prefix_append _ _).trans h'.prefix)
    · exact Reg.lt (fun c1 h1 d hd => hs.2.2 c1 h1 d (by simp [hd])) h h'
    · exact hR ((List.prefix_append _ _).trans h.prefix) h'
  · rintro k (h | h | h | h)
    · exact .inl (Reg_append.2 (.inl h))
    · exact .inl (Reg_append.2 (.inr (Reg_cons.2 (.inl ((List.prefix_append _ _).trans h.prefix)))))
    · exact .inl (Reg_append.2 (.inr (Reg_cons.2 (.inr (Reg_append.2 (.inr h))))))
    · exact .inr h
  · rintro k hk (h | h)
    · rcases Reg_append.1 h with h | h
      · exact .inl h
      · rcases Reg_cons.1 h with h | h
        · exact .inr (.inl (r.covers k hk h))
        · rcases Reg_append.1 h with h | h
          · exact absurd h (hno k hk)
          · exact .inr (.inr (.inl h))
    · exact .inr (.inr (.inr h))

/-- A stack entry that refers to a node seen. -/
def GoodPos (S : T → Prop) (p : Word × Nat) : Prop := ∃ q n pfx big ch, Ref S p.1 q n pfx big ch ∧ p.2 ≤ cnt big ch

theorem GoodPos.mono {S S' : T → Prop} {p : Word × Nat} (h : GoodPos S p) (hS : ∀ x, S x → S' x) : GoodPos S' p := by
  obtain ⟨q, n, pfx, big, ch, r, h⟩ := h
  exact ⟨q, n, pfx, big, ch, r.mono hS, h⟩

theorem Frames.good {S : T → Prop} {p st R} (h : Frames S p st R) : ∀ x ∈ st, GoodPos S x := by
  induction h with
  | nil => intro x hx; simp at hx
  | @cons p q raw n pfx big ch pre cs c st R r hs hp hc _ ih =>
    intro x hx
    rcases List.mem_cons.1 hx with rfl | hx
    · exact ⟨q, n, pfx, big, ch, r, by have := cnt_split hs; show pre.length ≤ _; omega⟩
    · exact ih x hx

/-- The node and the position of a stack entry. -/
def ItPos.at (p : ItPos) : Word × Nat := (p.raw, p.k)

theorem trimStack_sub : ∀ (st : List ItPos) (p : ItPos), p ∈ trimStack st → p ∈ st
  | [], p, h => by simpa [trimStack] using h
  | [x], p, h => by simpa [trimStack] using h
  | x :: y :: st, p, h => by
    simp only [trimStack] at h
    split at h
    · exact h
    · exact List.mem_cons_of_mem _ (trimStack_sub (y :: st) p h)

section
variable {env : Env} {a : Nat} {L : Prop} {E : Panic → Prop}

/-- Rebuilding the position: one slot beyond the last node may be read. -/
theorem safe_resumeLoop (hE : E .index) : ∀ (first : Bool) (st : List ItPos) (acc : List UInt8) {S : T → Prop}, (∀ p ∈ st, GoodPos S p.at) →
    Safe env a True E (fun _ _ => True) (resumeLoopP first st acc) S
  | _, [], acc, S, _ => trivial
  | first, p :: ps, acc, S, h => by
    obtain ⟨q, n, pfx, big, ch, hr, hk⟩ := h p (by simp)
    unfold resumeLoopP
    refine Safe.bind (safe_nodeData hr) ?_
    rintro S1 _ hS1 rfl
    refine Safe.bind (safe_append (hr.mono hS1) _) ?_
    rintro S2 _ hS2 rfl
    have hr2 := (hr.mono hS1).mono hS2
    simp only
    cases ps with
    | nil =>
      refine Safe.bind (Q := fun _ _ => True) ?_ fun _ _ _ _ => trivial
      unfold Slice.getP
      split
      · intro s S' hw hS
        refine ⟨?_, trivial⟩
        obtain ⟨ch', e1, e2, e3⟩ := hw.view hr2.inS hS
        have hc : 2 ≤ cnt big ch := by
          cases hb : big with
          | false => rw [← hb]; exact hr.fields.small hb
          | true => simp [cnt]
        have e4 := e1.nodeSize (pfx := pfx)
        have e5 : nodeSize pfx big ch = cnt big ch + prefixSlots pfx.length := rfl
        have hk' : p.k ≤ cnt big ch := hk
        by_cases hlt : p.k < cnt big ch
        · exact .inl (hw.guarded e3 (by show n ≤ n + _; omega) (by show n + _ < n + _; omega))
        · refine .inr ⟨trivial, n + (prefixSlots pfx.length + p.k - 1), by show n + _ = _; omega, ?_⟩
          exact hw.guarded e3 (by omega) (by omega)
      · exact hE
    | cons p' ps => exact safe_resumeLoop hE false (p' :: ps) _ fun x hx => ((h x (by simp at hx ⊢; exact .inr hx)).mono hS1).mono hS2

theorem safe_storeResume (hE : E .index) {st : List ItPos} {S : T → Prop} (h : ∀ p ∈ st, GoodPos S p.at) :
    Safe env a True E (fun _ _ => True) (storeResumeP st) S :=
  safe_resumeLoop hE _ _ _ fun p hp => h p (trimStack_sub st p (by simpa using hp))

/-- The scan. -/
theorem safe_scanLoop (hE : E .fuel) (hE' : E .index) : ∀ (fuel : Nat) {S : T → Prop} {raw : Word} {q : Key} {n : Nat} {pfx : List UInt8} {big : Bool} {ch : UInt8 → T}
    {pre cs : List UInt8} {R : Key → Prop} {stack : List ItPos} (pf : List Word), Ref S raw q n pfx big ch → slotsOf big ch = pre ++ cs →
    Frames S q (stack.map ItPos.at) R →
    Safe env a True E (fun S' r => ∃ l, r.1 = pf ++ vals l ∧ Part S' (fun k => Reg (q ++ pfx) cs k ∨ R k) l (r.2 = none)) (scanLoopP fuel raw pre.length stack pf) S
  | 0, _, _, _, _, _, _, _, _, _, _, _, _, _, _, _ => hE
  | fuel + 1, S, raw, q, n, pfx, big, ch, pre, cs, R, stack, pf, hr, hs, hf => by
    have hcnt := cnt_split hs
    have hsort : (pre ++ cs).Pairwise (· < ·) := by rw [← hs]; exact slotsOf_sorted big ch
    have hsort' := (List.pairwise_append.1 hsort).2.1
    unfold scanLoopP
    refine Safe.bind (safe_nodeData hr) ?_
    rintro S1 _ hS1 rfl
    have hr1 := hr.mono hS1
    refine Safe.bind (safe_skip hr1) ?_
    rintro S2 _ hS2 rfl
    have hr2 := hr1.mono hS2
    simp only
    rw [hr.fields.count, show cnt big ch - pre.length = cs.length by omega]
    refine Safe.bind (safe_scanKids hr2 hs) ?_
    rintro S3 ⟨vs, r⟩ hS3 ⟨l0, hl0, h⟩
    have hr3 := hr2.mono hS3
    have hf3 := ((hf.mono hS1).mono hS2).mono hS3
    simp only at hl0
    rcases h with ⟨h1, h2⟩ | ⟨cs1, d, cs2, w, n', pfx', big', ch', h1, h2, h3, h4⟩
    · simp only at h1
      subst h1
      simp only
      cases stack with
      | nil =>
        refine ⟨l0, by rw [hl0], ?_⟩
        rw [List.map_nil] at hf
        cases hf
        exact (h2.widen (fun k h => .inl h) fun k _ h => by simpa using h).part
      | cons p st =>
        have hlt : ∀ k k', Reg (q ++ pfx) cs k → R k' → k < k' := fun k k' hk hk' => Frames.lt hf ((List.prefix_append _ _).trans hk.prefix) hk'
        simp only
        split
        · refine Safe.bind (safe_storeResume hE' (st := p :: st) fun x hx => hf3.good x.at (List.mem_map_of_mem hx)) ?_
          intro S4 key hS4 _
          refine ⟨l0 ++ [], by rw [hl0, List.append_nil], ?_⟩
          exact (((h2.mono hS4).appendPart Part.stop) hlt).weak fun h => by cases h
        · rw [List.map_cons] at hf3
          generalize hat : p.at = pa at hf3
          cases hf3 with
          | @cons _ q' raw' n' pfx' big' ch' pre' cs' d _ R' r' hs' hp' hc' hf' =>
          have e1 : p.raw = raw' := congrArg Prod.fst hat
          have e2 : p.k = pre'.length := congrArg Prod.snd hat
          rw [e1, e2]
          refine (safe_scanLoop hE hE' fuel (pf ++ vs) r' hs' hf').mono ?_
          rintro S4 c' hS4 ⟨l1, hl1', hcol⟩
          refine ⟨l0 ++ l1, by rw [hl1', hl0, vals_append, List.append_assoc], ?_⟩
          exact (h2.mono hS4).appendPart hcol hlt
    · simp only at h2
      subst h2
      simp only
      subst h1
      rw [← List.length_append]
      refine Safe.bind (safe_afterKid (pre := pre ++ cs1) (c := d) (cs := cs2) hr3 (by rw [hs]; simp)) ?_
      rintro S4 next hS4 ⟨ds1, ds2, e1, e2, e3⟩
      subst e1
      have hpair := List.pairwise_append.1 hsort'
      have hdlt : ∀ x ∈ ds2, d < x := fun x hx => List.rel_of_pairwise_cons hpair.2.1 (by simp [hx])
      have hf4 := hf3.mono hS4
      have hfr : Frames S4 (q ++ pfx ++ [d]) (List.map ItPos.at (⟨raw, next, next < cnt big ch⟩ :: stack)) (fun k => Reg (q ++ pfx) ds2 k ∨ R k) := by
        have e : next = (pre ++ cs1 ++ d :: ds1).length := by rw [e2]; simp; omega
        rw [List.map_cons, show ItPos.at ⟨raw, next, next < cnt big ch⟩ = (raw, (pre ++ cs1 ++ d :: ds1).length) by rw [← e]; rfl]
        exact .cons (hr3.mono hS4) (by rw [hs]; simp) (List.prefix_refl _) hdlt hf4
      refine (safe_scanLoop hE hE' fuel (pf ++ vs) (h4.mono hS4) (pre := []) (cs := slotsOf big' ch') rfl hfr).mono ?_
      rintro S5 c' hS5 ⟨l1, hl1', hcol⟩
      refine ⟨l0 ++ l1, by rw [hl1', hl0, vals_append, List.append_assoc], ?_⟩
      exact Part.visit hsort' ((h3.mono hS4).mono hS5) ((h4.mono hS4).mono hS5) hcol (fun k hk => e3 k (hk.anti hS5)) fun h1 h2 => hf.lt h1 h2

/-- The search for a child with the byte. -/
theorem safe_findKid {raw : Word} {q : Key} {n : Nat} {pfx : List UInt8} {big : Bool} {ch : UInt8 → T} (char : UInt8) : ∀ {cs pre : List UInt8} {S : T → Prop},
    Ref S raw q n pfx big ch → slotsOf big ch = pre ++ cs →
    Safe env a L E (fun S' r => ∀ i w, r = some (i, w) → ∃ pre' c rest, slotsOf big ch = pre' ++ c :: rest ∧ i = pre'.length ∧ Obs S' (q ++ pfx ++ [c]) w ∧
      (big = false → w ≠ 0)) (findKidP (kidSlice n pfx) char cs.length pre.length) S
  | [], pre, S, hr, hs => by intro i w h; cases h
  | c :: cs, pre, S, hr, hs => by
    refine Safe.bind (safe_kid hr hs) ?_
    rintro S1 w hS1 ⟨h1, h2, h3⟩
    split
    · intro i w' h
      cases h
      exact ⟨pre, c, cs, hs, rfl, h1, h3⟩
    · have ih := safe_findKid char (cs := cs) (pre := pre ++ [c]) (hr.mono hS1) (by rw [hs]; simp)
      rw [List.length_append, List.length_singleton] at ih
      exact ih

/-- Where the walk along the stored position arrives. -/
def Sought (S : T → Prop) (B : Key) (r : Word × Nat × List ItPos) : Prop :=
  ∃ q n pfx big ch pre cs R, Ref S r.1 q n pfx big ch ∧ slotsOf big ch = pre ++ cs ∧ r.2.1 = pre.length ∧ Frames S q (r.2.2.map ItPos.at) R ∧
    B <+: q ++ pfx ∧ ∀ k, R k → B <+: k

theorem safe_seekLoop (hE : E .fuel) {resumeAt : List UInt8} {B : Key} : ∀ (fuel k : Nat) {S : T → Prop} {raw : Word} {q : Key} {n : Nat} {pfx : List UInt8} {big : Bool}
    {ch : UInt8 → T} {R : Key → Prop} {stack : List ItPos}, Ref S raw q n pfx big ch → Frames S q (stack.map ItPos.at) R → B <+: q ++ pfx → (∀ k, R k → B <+: k) →
    Safe env a L E (fun S' r => Sought S' B r) (seekLoopP resumeAt fuel k raw stack) S
  | 0, _, _, _, _, _, _, _, _, _, _, _, _, _, _ => hE
  | fuel + 1, k, S, raw, q, n, pfx, big, ch, R, stack, hr, hf, hB, hR => by
    have hstop : ∀ {S' : T → Prop}, (∀ x, S x → S' x) → Sought S' B (raw, 0, stack) := fun hS =>
      ⟨q, n, pfx, big, ch, [], slotsOf big ch, R, hr.mono hS, rfl, rfl, hf.mono hS, hB, hR⟩
    unfold seekLoopP
    by_cases hk : ¬ k < resumeAt.length
    · rw [if_neg hk]; exact hstop fun _ h => h
    rw [if_pos (Decidable.of_not_not hk)]
    refine Safe.bind (safe_nodeData hr) ?_
    rintro S1 _ hS1 rfl
    have hr1 := hr.mono hS1
    refine Safe.bind (safe_skip hr1) ?_
    rintro S2 _ hS2 rfl
    have hr2 := hr1.mono hS2
    have hS02 : ∀ x, S x → S2 x := fun x hx => hS2 x (hS1 x hx)
    simp only
    by_cases hge : k + pfx.length ≥ resumeAt.length
    · rw [if_pos hge]; exact hstop hS02
    rw [if_neg hge]
    have hka : keyAt resumeAt (k + pfx.length) = .ok resumeAt[k + pfx.length] := by unfold keyAt; rw [List.getElem?_eq_getElem (by omega)]
    refine Safe.bind (Q := fun _ c => c = resumeAt[k + pfx.length]) (Safe.retOk hka rfl) ?_
    rintro S3 char hS3 -
    have hr3 := hr2.mono hS3
    have hS03 : ∀ x, S x → S3 x := fun x hx => hS3 x (hS02 x hx)
    -- going down
    have hdown : ∀ {S4 : T → Prop} (hS4 : ∀ x, S3 x → S4 x) {pre ds1 ds2 : List UInt8} {c : UInt8} {w : Word} {next : Nat},
        slotsOf big ch = pre ++ c :: (ds1 ++ ds2) → next = pre.length + 1 + ds1.length → w ≠ 0 → isLeaf w = false → Obs S4 (q ++ pfx ++ [c]) w →
        Safe env a L E (fun S' r => Sought S' B r) (seekLoopP resumeAt fuel (k + pfx.length + 1) w (⟨raw, next, next < nodeCount raw⟩ :: stack)) S4 := by
      intro S4 hS4 pre ds1 ds2 c w next hs hn h0 hl ho
      have hsort : (pre ++ c :: (ds1 ++ ds2)).Pairwise (· < ·) := by rw [← hs]; exact slotsOf_sorted big ch
      have hpair := List.pairwise_append.1 hsort
      have hdlt : ∀ x ∈ ds2, c < x := fun x hx => List.rel_of_pairwise_cons hpair.2.1 (by simp [hx])
      cases ho with
      | none h => exact absurd h h0
      | leaf _ _ l => rw [hl] at l; cases l
      | node n' pfx' big' ch' r =>
        have hfr : Frames S4 (q ++ pfx ++ [c]) (List.map ItPos.at (⟨raw, next, next < nodeCount raw⟩ :: stack)) (fun k => Reg (q ++ pfx) ds2 k ∨ R k) := by
          have e : next = (pre ++ c :: ds1).length := by rw [hn]; simp; omega
          rw [List.map_cons, show ItPos.at ⟨raw, next, next < nodeCount raw⟩ = (raw, (pre ++ c :: ds1).length) by rw [← e]; rfl]
          exact .cons (hr3.mono hS4) (by rw [hs]; simp) (List.prefix_refl _) hdlt ((hf.mono hS03).mono hS4)
        refine safe_seekLoop hE fuel _ r hfr ?_ ?_
        · rw [List.append_assoc]; exact hB.trans (List.prefix_append _ _)
        · rintro k (h | h)
          · exact hB.trans h.prefix
          · exact hR k h
    by_cases hb : big = true
    · rw [if_pos (by rw [hr.fields.count]; exact hr.fields.big_iff.2 hb)]
      obtain ⟨pre, rest, hs, hl⟩ := big_split hb (ch := ch) char
      rw [hl]
      refine Safe.bind (safe_kid hr3 hs) ?_
      rintro S4 w hS4 ⟨h1, -, -⟩
      split
      · rename_i h0
        split
        · exact ⟨q, n, pfx, big, ch, pre, char :: rest, R, hr3.mono hS4, hs, rfl, (hf.mono hS03).mono hS4, hB, hR⟩
        · rename_i hlf
          have hcnt := cnt_split hs
          simp only [List.length_cons] at hcnt
          have hnk := safe_nextKid (env := env) (a := a) (L := L) (E := E) (cs := rest) (pre := pre ++ [char]) (hr3.mono hS4) (by rw [hs]; simp)
          rw [List.length_append, List.length_singleton] at hnk
          rw [hr.fields.count, show cnt big ch - (pre.length + 1) = rest.length by omega]
          refine Safe.bind hnk ?_
          rintro S5 next hS5 ⟨ds1, ds2, e1, e2, -⟩
          have := hdown (fun x hx => hS5 x (hS4 x hx)) (pre := pre) (ds1 := ds1) (ds2 := ds2) (c := char) (w := w) (next := next) (by rw [hs, e1]) e2 h0.1
            (by simpa using hlf) (h1.mono hS5)
          rw [hr.fields.count] at this
          exact this
      · exact hstop fun x hx => hS4 x (hS03 x hx)
    · have hb' : big = false := by simpa using hb
      rw [if_neg (by rw [hr.fields.count, hr.fields.big_iff]; exact hb)]
      have hfits := hr.fields.fits
      refine Safe.bind (Q := fun _ _ => True) (Safe.retOk (v := ()) (if_pos (by rw [hr.fields.count]; show _ ≤ blockSlots - n % blockSlots - prefixSlots pfx.length; omega)) trivial) ?_
      intro S4 _ hS4 _
      have hfk := safe_findKid (env := env) (a := a) (L := L) (E := E) char (cs := slotsOf big ch) (pre := []) (hr3.mono hS4) rfl
      rw [length_slotsOf] at hfk
      rw [hr.fields.count]
      refine Safe.bind hfk ?_
      rintro S5 r hS5 h
      have hS35 : ∀ x, S3 x → S5 x := fun x hx => hS5 x (hS4 x hx)
      cases r with
      | none => exact hstop fun x hx => hS35 x (hS03 x hx)
      | some r =>
        obtain ⟨i, w⟩ := r
        obtain ⟨pre, c, rest, hs, e, ho, hne⟩ := h i w rfl
        subst e
        simp only
        split
        · exact ⟨q, n, pfx, big, ch, pre, c :: rest, R, hr3.mono hS35, hs, rfl, (hf.mono hS03).mono hS35, hB, hR⟩
        · rename_i hlf
          have := hdown hS35 (pre := pre) (ds1 := []) (ds2 := rest) (c := c) (w := w) (next := pre.length + 1) hs rfl (hne hb') (by simpa using hlf) ho
          rw [hr.fields.count] at this
          exact this

/-- What a call of `Next` that fetches returns, with the values it has fetched in advance; `whole`: the first call. -/
def Fetched (S : T → Prop) (sp : Key) (whole : Prop) (r : Bool × Iter) : Prop :=
  r.2.searchPrefix = sp ∧
  ((∃ l, r.1 = !l.isEmpty ∧ (r.1 = true → r.2.value :: r.2.prefetched.drop r.2.pp = vals l) ∧ l.Pairwise (fun x y => x.1 < y.1) ∧
      (∀ x ∈ l, sp <+: x.1 ∧ Once S x.1 x.2) ∧ (whole → Part S (fun k => sp <+: k) l (r.2.done = true))) ∨
    (r.1 = true ∧ r.2.done = true ∧ ∃ k v, r.2.value = trunc55 v ∧ (whole → r.2.prefetched = []) ∧ Once S k v ∧
      ∀ k', Always S k' → sp <+: k' → k' = k))

theorem safe_next (hE : E .fuel) (hE' : E .index) (fuel : Nat) (it : Iter) (hd : it.done = false) (hp : it.prefetched[it.pp]? = none) (S : T → Prop) :
    Safe env a True E (fun S' r => Fetched S' it.searchPrefix (it.resumeAt = [] ∧ it.prefetched = []) r) (it.nextP fuel) S := by
  unfold Iter.nextP
  rw [hp]
  simp only [hd, Bool.false_eq_true, if_false]
  have hstart : Safe env a True E (fun S' r => Found S' it.searchPrefix r.1) (Iter.startP it.searchPrefix) S := by
    unfold Iter.startP
    split
    · exact (safe_partialSearch it.searchPrefix S).mono fun _ _ _ h => h.1
    · rename_i h
      have hn : it.searchPrefix = [] := List.length_eq_zero_iff.1 (by omega)
      have := safe_partialSearch (env := env) (a := a) (L := True) (E := E) [] S
      rw [hn]
      intro s S' hw hS
      exact (this s S' hw hS).1
  refine Safe.bind hstart ?_
  rintro S1 ⟨raw, d⟩ hS1 h
  simp only at h ⊢
  cases h with
  | none h no =>
    rw [if_pos h]
    exact ⟨rfl, .inl ⟨[], rfl, nofun, List.Pairwise.nil, fun x hx => by simp at hx, fun _ => (Collected.nil no).part⟩⟩
  | leaf k v l hv st only =>
    rw [if_neg (by rintro rfl; exact absurd l (by decide)), if_pos l]
    exact ⟨rfl, .inr ⟨rfl, rfl, k, v, hv, fun h => h.2, st, only⟩⟩
  | node q n pfx big ch r hq hsp =>
    rw [if_neg r.ne, if_neg (by rw [r.leaf]; simp)]
    have hB : it.searchPrefix <+: q ++ pfx := by
      rcases hsp with h | h
      · exact h
      · rw [← h]; exact List.prefix_append _ _
    have hseek : Safe env a True E (fun S' s => Sought S' it.searchPrefix s ∧ (it.resumeAt = [] → s = (raw, 0, [])))
        (seekLoopP it.resumeAt (it.resumeAt.length + 1) 0 raw []) S1 := by
      by_cases he : it.resumeAt = []
      · rw [he]
        refine ⟨⟨q, n, pfx, big, ch, [], slotsOf big ch, _, r, rfl, rfl, .nil q, hB, fun k h => h.elim⟩, fun _ => rfl⟩
      · refine (safe_seekLoop hE (B := it.searchPrefix) _ 0 r (R := fun _ => False) (.nil q) hB fun k h => h.elim).mono ?_
        intro S' s _ h
        exact ⟨h, fun h => absurd h he⟩
    refine Safe.bind hseek ?_
    rintro S2 ⟨raw', next, stack⟩ hS2 ⟨⟨q', n', pfx', big', ch', pre, cs, R, r', hs, hn, hf, hB', hR⟩, hw⟩
    simp only at r' hn hf hw
    subst hn
    have hscan := safe_scanLoop (env := env) (a := a) hE hE' fuel [] r' hs hf
    have hall : Safe env a True E (fun S' r => ∃ l, r.1 = vals l ∧ l.Pairwise (fun x y => x.1 < y.1) ∧ (∀ x ∈ l, it.searchPrefix <+: x.1 ∧ Once S' x.1 x.2) ∧
        (it.resumeAt = [] → Part S' (fun k => it.searchPrefix <+: k) l (r.2 = none))) (scanLoopP fuel raw' pre.length stack []) S2 := by
      by_cases he : it.resumeAt = []
      · have e := hw he
        simp only [Prod.mk.injEq] at e
        obtain ⟨rfl, e2, rfl⟩ := e
        rw [e2]
        refine (safe_scanLoop (env := env) (a := a) hE hE' fuel [] (r.mono hS2) (pre := []) (cs := slotsOf big ch) rfl (.nil q)).mono ?_
        rintro S3 res hS3 ⟨l, hl, hpart⟩
        have hpart' : Part S3 (fun k => it.searchPrefix <+: k) l (res.2 = none) := by
          refine hpart.widen ?_ fun k hk hp => .inl (((r.mono hS2).mono hS3).covers k hk (hq.trans hp))
          rintro k (h | h)
          · exact hB.trans h.prefix
          · exact h.elim
        exact ⟨l, by simpa using hl, hpart'.sorted, hpart'.sound, fun _ => hpart'⟩
      · refine hscan.mono ?_
        rintro S3 res hS3 ⟨l, hl, hpart⟩
        refine ⟨l, by simpa using hl, hpart.sorted, fun x hx => ⟨?_, (hpart.sound x hx).2⟩, fun h => absurd h he⟩
        rcases (hpart.sound x hx).1 with h | h
        · exact hB'.trans h.prefix
        · exact hR _ h
    refine Safe.bind hall ?_
    rintro S3 ⟨pf, res⟩ hS3 ⟨l, hl, h1, h2, h3⟩
    simp only at hl h3
    subst hl
    clear hall hscan hw
    have key : ∀ it' : Iter, it'.searchPrefix = it.searchPrefix → it'.prefetched = vals l → (it'.done = true → res = none) →
        Safe env a True E (fun S' r => Fetched S' it.searchPrefix (it.resumeAt = [] ∧ it.prefetched = []) r)
          (match vals l with
            | v :: _ => (pure (true, { it' with value := v, pp := 1 }) : Prog (Bool × Iter))
            | [] => pure (false, it')) S3 := by
      intro it' d1 d2 d3
      cases l with
      | nil => exact ⟨d1, .inl ⟨[], rfl, nofun, h1, h2, fun he => (h3 he.1).weak d3⟩⟩
      | cons x l =>
        refine ⟨d1, .inl ⟨x :: l, rfl, fun _ => ?_, h1, h2, fun he => (h3 he.1).weak d3⟩⟩
        simp only [d2]
        rfl
    cases res with
    | none => exact key { it with prefetched := vals l, done := true } rfl rfl fun _ => rfl
    | some k => exact key { it with prefetched := vals l, resumeAt := k, done := false } rfl rfl nofun

end

end Radix
