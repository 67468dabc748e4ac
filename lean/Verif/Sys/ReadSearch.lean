import Verif.Sys.Reader
/-!
# The prefix search while other operations run
-/
set_option autoImplicit false
namespace Radix
open T

section
variable {env : Env} {a : Nat} {L : Prop} {E : Panic → Prop}

/-- What the prefix search has found. -/
inductive Found (S : T → Prop) (sp : Key) (w : Word) : Prop
  | none (h : w = 0) (no : ∀ k, Always S k → ¬ sp <+: k)
  | leaf (k : Key) (v : Word) (l : isLeaf w = true) (hv : leafValue w = trunc55 v) (st : Once S k v)
      (only : ∀ k', Always S k' → sp <+: k' → k' = k)
  | node (q : Key) (n : Nat) (pfx : List UInt8) (big : Bool) (ch : UInt8 → T) (r : Ref S w q n pfx big ch) (hq : q <+: sp)
      (hsp : sp <+: q ++ pfx ∨ q = sp)

section
variable {S : T → Prop} {raw : Word} {q : Key} {n : Nat} {pfx : List UInt8} {big : Bool} {ch : UInt8 → T}

/-- The slot of a byte in a 256-slot node. -/
theorem big_split (hb : big = true) (k : UInt8) : ∃ pre rest, slotsOf big ch = pre ++ k :: rest ∧ k.toNat = pre.length := by
  have hk := k.toNat_lt
  have hlen : (slotsOf big ch).length = 256 := by rw [length_slotsOf]; simp [cnt, hb]
  have he : (slotsOf big ch)[k.toNat]'(by rw [hlen]; exact hk) = k := by
    have h1 := getElem_slotsOf_idx (big := big) (ch := ch) (i := k.toNat) (by rw [hlen]; exact hk)
    simp only [idx, hb, if_true] at h1
    exact UInt8.toNat_inj.1 (by simpa [hb] using h1)
  refine ⟨(slotsOf big ch).take k.toNat, (slotsOf big ch).drop (k.toNat + 1), ?_, by rw [List.length_take, hlen]; omega⟩
  conv => lhs; rw [← List.take_append_drop k.toNat (slotsOf big ch)]
  rw [List.drop_eq_getElem_cons (by rw [hlen]; exact hk), he]

/-- The scan of a variable sized node. -/
theorem safe_scan (hb : big = false) {k : UInt8} : ∀ {cs pre : List UInt8} {w0 : Word} {S : T → Prop}, Ref S raw q n pfx big ch →
    slotsOf big ch = pre ++ cs → (cs = [] → keyByte w0 ≠ k) →
    Safe env a L E (fun S' w => (k ∈ cs ∧ keyByte w = k ∧ w ≠ 0 ∧ Obs S' (q ++ pfx ++ [k]) w) ∨ (k ∉ cs ∧ keyByte w ≠ k))
      (scanP (kidSlice n pfx) k cs.length pre.length w0) S
  | [], pre, w0, S, hr, hs, h0 => .inr ⟨by simp, h0 rfl⟩
  | c :: cs, pre, w0, S, hr, hs, h0 => by
    refine Safe.bind (safe_kid hr hs) ?_
    rintro S' w hS ⟨h1, h2, h3⟩
    have hne := h3 hb
    have hkb := h2 hne
    have hsort : (pre ++ c :: cs).Pairwise (· < ·) := by rw [← hs]; exact slotsOf_sorted big ch
    have hsort' := (List.pairwise_append.1 hsort).2.1
    rw [hkb]
    by_cases hk : c ≥ k
    · rw [if_pos hk]
      by_cases e : c = k
      · subst e
        exact Safe.ok (.inl ⟨by simp, hkb, hne, h1⟩)
      · refine Safe.ok (.inr ⟨?_, by rw [hkb]; exact e⟩)
        intro hm
        rcases List.mem_cons.1 hm with e' | hm
        · exact e e'.symm
        · have := List.rel_of_pairwise_cons hsort' hm
          exact absurd (UInt8.lt_of_le_of_lt hk this) (UInt8.lt_irrefl _)
    · rw [if_neg hk]
      have e : k ≠ c := fun e => hk (e ▸ UInt8.le_refl _)
      have ih := safe_scan hb (k := k) (cs := cs) (pre := pre ++ [c]) (w0 := w) (hr.mono hS) (by rw [hs]; simp) (fun _ => by rw [hkb]; exact e.symm)
      rw [List.length_append, List.length_singleton] at ih
      refine ih.mono ?_
      intro S2 v _ hv
      rcases hv with ⟨h4, h5⟩ | ⟨h4, h5⟩
      · exact .inl ⟨List.mem_cons_of_mem _ h4, h5⟩
      · exact .inr ⟨by simp [e, h4], h5⟩

/-- What is known after one visit of the prefix search. -/
def Visited (S : T → Prop) (p : Key) : (Word × Nat) ⊕ Word → Prop
  | .inl (w, _) => (w = 0 ∨ isLeaf w = true) ∧ Obs S p w
  | .inr w => ∃ n pfx big ch, Ref S w p n pfx big ch

theorem safe_partialKids (hr : Ref S raw q n pfx big ch) (k : UInt8) (depth : Nat) :
    Safe env a L E (fun S' r => Visited S' (q ++ pfx ++ [k]) r) (partialKidsP raw (kidSlice n pfx) k depth) S := by
  unfold partialKidsP
  by_cases hb : big = true
  · rw [if_pos (by rw [hr.fields.count]; exact hr.fields.big_iff.2 hb)]
    obtain ⟨pre, rest, hs, hl⟩ := big_split hb (ch := ch) k
    rw [hl]
    refine Safe.bind (safe_kid hr hs) ?_
    rintro S' w hS ⟨h1, h2, h3⟩
    by_cases h0 : w = 0
    · rw [if_pos h0]; subst h0; exact ⟨.inl rfl, h1⟩
    · rw [if_neg h0]
      cases h1 with
      | none h => exact absurd h h0
      | leaf k v l hv hp st only => rw [if_pos l]; exact ⟨.inr l, .leaf k v l hv hp st only⟩
      | node n pfx big ch r => rw [if_neg (by rw [r.leaf]; simp)]; exact ⟨n, pfx, big, ch, r⟩
  · have hb' : big = false := by simpa using hb
    rw [if_neg (by rw [hr.fields.count, hr.fields.big_iff]; exact hb)]
    have hf := hr.fields.fits
    have hsm := hr.fields.small hb'
    have hlen := length_slotsOf big ch
    refine Safe.bind (Q := fun _ _ => True) (Safe.retOk (v := ()) (if_pos (by rw [hr.fields.count]; show _ ≤ blockSlots - n % blockSlots - prefixSlots pfx.length; omega)) trivial) ?_
    intro S1 _ hS1 _
    rw [hr.fields.count, ← hlen]
    refine Safe.bind (safe_scan hb' (k := k) (pre := []) (w0 := 0) (hr.mono hS1) rfl (fun h => by rw [h] at hlen; simp at hlen; omega)) ?_
    rintro S2 w hS2 (⟨h1, h2, h3, h4⟩ | ⟨h1, h2⟩)
    · rw [if_pos h2]
      cases h4 with
      | none h => exact absurd h h3
      | leaf k v l hv hp st only => rw [if_pos l]; exact ⟨.inr l, .leaf k v l hv hp st only⟩
      | node n pfx big ch r => rw [if_neg (by rw [r.leaf]; simp)]; exact ⟨n, pfx, big, ch, r⟩
    · rw [if_neg h2]
      refine ⟨.inl rfl, .none rfl fun k' hk hp => ?_⟩
      obtain ⟨c, hc, hp'⟩ := hr.covers k' ((hk.anti hS2).anti hS1) (((List.prefix_append q (pfx ++ [k])).trans (by simp)).trans hp)
      refine h1 ?_
      have : q ++ pfx ++ [k] = q ++ pfx ++ [c] := by
        have := List.prefix_of_prefix_length_le hp hp' (by simp)
        exact List.IsPrefix.eq_of_length this (by simp)
      simp only [List.append_cancel_left_eq, List.cons.injEq, and_true] at this
      rw [this]; exact hc

/-- The loop of the prefix search. -/
theorem safe_partialLoop {sp : Key} : ∀ (fuel : Nat) {S : T → Prop} {raw : Word} {q : Key} {n pfx big ch} {depth : Nat}, Ref S raw q n pfx big ch →
    q <+: sp → q.length = depth → sp.length < depth + fuel →
    Safe env a L E (fun S' r => Found S' sp r.1) (partialLoopP sp fuel raw depth) S
  | 0, S, raw, q, n, pfx, big, ch, depth, hr, hq, hd, hf => by
    have := hq.length_le
    omega
  | fuel + 1, S, raw, q, n, pfx, big, ch, depth, hr, hq, hd, hf => by
    unfold partialLoopP
    by_cases hge : depth ≥ sp.length
    · rw [if_pos hge]
      exact .node q n pfx big ch hr hq (.inr (hq.eq_of_length_le (by omega)))
    rw [if_neg hge]
    refine Safe.bind (safe_nodeData hr) ?_
    rintro S1 _ hS1 rfl
    have hr1 := hr.mono hS1
    have hfits := hr.fields.fits
    -- the part after the prefix
    have hrest : ∀ {S2 : T → Prop} (hS2 : ∀ x, S1 x → S2 x) (d : Nat), d = (q ++ pfx).length → q ++ pfx <+: sp → d < sp.length → Safe env a L E (fun S' r => Found S' sp r.1) (do
        let k ← Prog.ret (keyAt sp d)
        match ← partialKidsP raw (kidSlice n pfx) k d with
        | .inl r => return r
        | .inr a => partialLoopP sp fuel a (d + 1)) S2 := by
      intro S2 hS2 d hdl hp hlt
      have hka : keyAt sp d = .ok sp[d] := by unfold keyAt; rw [List.getElem?_eq_getElem hlt]
      have hq' : q ++ pfx ++ [sp[d]] <+: sp := by
        obtain ⟨r, hr⟩ := hp
        subst hr
        cases r with
        | nil => simp at hlt; simp at hdl; omega
        | cons c r =>
          refine ⟨r, ?_⟩
          subst hdl
          simp
      refine Safe.bind (Q := fun _ k => k = sp[d]) (Safe.retOk hka rfl) ?_
      rintro S3 _ hS3 rfl
      refine Safe.bind (safe_partialKids ((hr1.mono hS2).mono hS3) _ d) ?_
      rintro S4 (⟨w, d'⟩ | w) hS4 hv
      · obtain ⟨h1, h2⟩ := hv
        show Found S4 sp w
        cases h2 with
        | none h no => exact .none h fun k hk hp => no k hk (hq'.trans hp)
        | leaf k v l hv hp st only => exact .leaf k v l hv st fun k' hk hp => only k' hk (hq'.trans hp)
        | node n pfx big ch r =>
          rcases h1 with h | h
          · exact absurd h r.ne
          · rw [r.leaf] at h; cases h
      · obtain ⟨n', pfx', big', ch', r⟩ := hv
        refine safe_partialLoop fuel r hq' (by rw [List.length_append, ← hdl]; rfl) ?_
        rw [hdl, List.length_append]; omega
    have hdrop : ∀ (xs : List UInt8), sp.drop depth = pfx ++ xs → sp = q ++ pfx ++ xs := by
      intro xs h
      obtain ⟨r, hr⟩ := hq
      subst hr
      subst hd
      simp only [List.drop_left] at h
      rw [h]; simp
    by_cases hp0 : nodePlen raw > 0
    · rw [if_pos hp0]
      refine Safe.bind (safe_append hr1 []) ?_
      rintro S2 _ hS2 rfl
      refine Safe.bind (Q := fun _ d => d = kidSlice n pfx) (Safe.retOk (v := kidSlice n pfx) ?_ rfl) ?_
      · unfold Slice.drop
        rw [if_pos (by show _ ≤ blockSlots - n % blockSlots; omega)]
        rfl
      rintro S3 _ hS3 rfl
      simp only [List.nil_append]
      have hr3 := (hr1.mono hS2).mono hS3
      have hsp : sp = q ++ sp.drop depth := by
        obtain ⟨r, hr⟩ := hq
        subst hr
        subst hd
        simp
      rcases cmpSearch_spec (sp.drop depth) pfx with ⟨h, h1⟩ | ⟨h, h1, h2⟩ | ⟨h, h1, h2⟩
      · rw [h]
        simp only
        obtain ⟨xs, hxs⟩ := h1
        have hx := hdrop xs hxs.symm
        by_cases hge2 : depth + pfx.length ≥ sp.length
        · rw [if_pos hge2]
          refine .node q n pfx big ch hr3 hq (.inl ?_)
          have : xs = [] := by
            have := congrArg List.length hx
            simp only [List.length_append] at this
            exact List.length_eq_zero_iff.1 (by omega)
          rw [hx, this]; simp
        · rw [if_neg hge2]
          exact hrest (fun x hx => hS3 x (hS2 x hx)) _ (by rw [List.length_append]; omega) ⟨xs, hx.symm⟩ (by omega)
      · rw [h]
        refine .node q n pfx big ch hr3 hq (.inl ?_)
        rw [hsp]
        exact (List.prefix_append_right_inj q).2 h1
      · rw [h]
        refine .none rfl fun k hk hpk => ?_
        obtain ⟨c, hc, hp'⟩ := hr3.covers k hk (hq.trans hpk)
        have hqk : q ++ pfx <+: k := (List.prefix_append _ _).trans hp'
        rw [hsp] at hpk
        obtain ⟨r1, e1⟩ := hpk
        obtain ⟨r2, e2⟩ := hqk
        have e3 : sp.drop depth ++ r1 = pfx ++ r2 := by
          have := e1.trans e2.symm
          rw [List.append_assoc, List.append_assoc] at this
          exact List.append_cancel_left this
        rcases List.append_eq_append_iff.1 e3 with ⟨x, hx, -⟩ | ⟨x, hx, -⟩
        · exact h1 ⟨x, hx.symm⟩
        · exact h2 ⟨x, hx.symm⟩
    · rw [if_neg hp0]
      have hpn : pfx = [] := by
        have := hr.fields.plen
        exact List.length_eq_zero_iff.1 (by omega)
      subst hpn
      have e : (⟨n, blockSlots - n % blockSlots⟩ : Slice) = kidSlice n [] := rfl
      rw [e]
      exact hrest (fun x hx => hx) depth (by simpa using hd.symm) (by simpa using hq) (by omega)

/-- The loop starting from an empty tree. -/
theorem safe_partialLoop_zero {sp : Key} (hsp : ∀ k, Always S k → ¬ sp <+: k) : ∀ (fuel : Nat) {S' : T → Prop} {depth : Nat}, (∀ x, S x → S' x) →
    depth ≤ sp.length → sp.length < depth + fuel → Safe env a L E (fun S' r => Found S' sp r.1) (partialLoopP sp fuel 0 depth) S'
  | 0, S', depth, _, h1, h2 => by omega
  | fuel + 1, S', depth, hS, h1, h2 => by
    have e1 : nodeAddr 0 = 0 := by decide
    have e2 : nodePlen 0 = 0 := by decide
    have e3 : nodeCount 0 = 1 := by decide
    have e4 : keyByte 0 = 0 := by decide
    have e5 : isLeaf 0 = false := by decide
    have hno : ∀ {S2 : T → Prop}, (∀ x, S x → S2 x) → Found S2 sp 0 := fun h => .none rfl fun k hk => hsp k (hk.anti h)
    unfold partialLoopP
    by_cases hge : depth ≥ sp.length
    · rw [if_pos hge]; exact hno hS
    rw [if_neg hge, e1]
    refine Safe.bind (Q := fun _ d => d = ⟨0, blockSlots⟩) (p := nodeDataP 0) ?_ ?_
    · intro s S1 hw hS1
      simp only
      rw [if_pos (by simpa using hw.nb)]
      rfl
    rintro S1 _ hS1 rfl
    rw [e2, if_neg (by omega)]
    have hka : keyAt sp depth = .ok sp[depth] := by unfold keyAt; rw [List.getElem?_eq_getElem (by omega)]
    refine Safe.bind (Q := fun _ k => k = sp[depth]) (Safe.retOk hka rfl) ?_
    rintro S2 _ hS2 rfl
    have hS02 : ∀ x, S x → S2 x := fun x hx => hS2 x (hS1 x (hS x hx))
    refine Safe.bind (Q := fun _ r => r = .inl (0, depth) ∨ r = .inr 0) ?_ ?_
    · unfold partialKidsP
      rw [e3, if_neg (by decide)]
      refine Safe.bind (Q := fun _ _ => True) (Safe.retOk (v := ()) (if_pos (by show 1 ≤ blockSlots; decide)) trivial) ?_
      intro S3 _ hS3 _
      refine Safe.bind (Q := fun _ w => w = 0) ?_ ?_
      · unfold scanP
        refine Safe.bind (Q := fun _ w => w = 0) ?_ ?_
        · unfold Slice.getP
          rw [if_pos (by show 0 < blockSlots; decide)]
          intro s S4 hw hS4
          refine ⟨.inl (.inl rfl), ?_⟩
          exact hw.zero
        · rintro S4 _ hS4 rfl
          split
          · exact Safe.ok rfl
          · exact Safe.ok rfl
      · rintro S4 _ hS4 rfl
        rw [e4, e5]
        split
        · exact Safe.ok (.inr rfl)
        · exact Safe.ok (.inl rfl)
    · rintro S3 _ hS3 (rfl | rfl)
      · exact hno fun x hx => hS3 x (hS02 x hx)
      · exact safe_partialLoop_zero hsp fuel (fun x hx => hS3 x (hS02 x hx)) (by omega) (by omega)

end

/-- The prefix search. -/
theorem safe_partialSearch (sp : Key) (S : T → Prop) : Safe env a L E (fun S' r => Found S' sp r.1 ∧ ∃ t, S' t) (partialSearchP sp) S := by
  intro s S' hw hS
  obtain ⟨t, ht, hroot, hwf, hin, hbn⟩ := hw.root
  have hobs : rootWord t ≠ 0 → isLeaf (rootWord t) = false → Obs S' [] (rootWord t) := by
    intro h0 hl
    cases t with
    | empty => exact absurd rfl h0
    | leaf k v => simp [rootWord, isLeaf_buildLeaf] at hl
    | node n pfx big ch => exact Obs.of_at hw ht (At.here _) 0
  have hempty : rootWord t = 0 → ∀ k, Always S' k → ¬ sp <+: k := by
    intro h0 k hk _
    obtain ⟨v, hv⟩ := hk t ht
    cases t with
    | empty => exact hv
    | leaf k v => exact absurd h0 (by simp [rootWord, buildLeaf_ne_zero])
    | node n pfx big ch =>
      have := (Ref.of_seen hw ⟨_, ht, At.here _⟩ (b := 0)).ne
      exact this h0
  rw [hroot]
  refine Safe.mono (Q := fun S'' r => Found S'' sp r.1) ?_ fun S'' v h1 h2 => ⟨h2, t, h1 t ht⟩
  simp only
  have hleaf : ∀ k v, t = .leaf k v → Found S' sp (rootWord t) := by
    intro k v e
    subst e
    refine .leaf k v (isLeaf_buildLeaf ..) (leafValue_buildLeaf ..) ⟨_, ht, rfl, rfl⟩ fun k' hk _ => ?_
    obtain ⟨v', hv'⟩ := hk _ ht
    exact hv'.1.symm
  by_cases hsp : sp.length = 0
  · rw [if_pos hsp]
    have : sp = [] := List.length_eq_zero_iff.1 hsp
    subst this
    show Found S' [] (rootWord t)
    cases t with
    | empty => exact .none rfl (hempty rfl)
    | leaf k v => exact hleaf k v rfl
    | node n pfx big ch =>
      exact .node [] n pfx big ch (Ref.of_seen hw ⟨_, ht, At.here _⟩ (b := 0)) List.nil_prefix (.inr rfl)
  rw [if_neg hsp]
  have hka : keyAt sp 0 = .ok sp[0] := by unfold keyAt; rw [List.getElem?_eq_getElem (by omega)]
  cases t with
  | empty => exact safe_partialLoop_zero (S := S') (hempty rfl) _ (fun _ h => h) (by omega) (by omega)
  | leaf k v =>
    rw [if_pos (show isLeaf (rootWord (.leaf k v)) = true from isLeaf_buildLeaf ..)]
    refine Safe.bind (Q := fun _ k => k = sp[0]) (Safe.retOk hka rfl) ?_
    rintro S2 _ hS2 rfl
    split
    · show Found S2 sp (rootWord (.leaf k v))
      cases hleaf k v rfl with
      | none h no => exact .none h fun k' hk => no k' (hk.anti hS2)
      | leaf k v l hv st only => exact .leaf k v l hv (st.mono hS2) fun k' hk => only k' (hk.anti hS2)
      | node q n pfx big ch r hq hsp => exact .node q n pfx big ch (r.mono hS2) hq hsp
    · rename_i hne
      refine .none rfl fun k' hk hp => ?_
      obtain ⟨v', hv'⟩ := hk _ (hS2 _ ht)
      obtain rfl : k = k' := hv'.1
      apply hne
      rw [rootWord, keyByte_buildLeaf]
      obtain ⟨r, rfl⟩ := hp
      cases sp with
      | nil => simp at hsp
      | cons c r => rfl
  | node n pfx big ch =>
    have hr := Ref.of_seen hw ⟨_, ht, At.here _⟩ (b := 0)
    have e : rootWord (.node n pfx big ch) = wordOf 0 (.node n pfx big ch) := rfl
    rw [e, if_neg (by rw [hr.leaf]; simp)]
    exact safe_partialLoop _ hr List.nil_prefix rfl (by omega)

end

end Radix
