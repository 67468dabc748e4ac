import Verif.Scan
/-!
# The iterator on a memory representing a tree
-/
set_option autoImplicit false
namespace Radix
open T

theorem Held.kids_view {P st b0 t0 q0 S p b n pfx big ch} (hh : Held P st t0 q0)
    (hz : Zip b0 t0 S p b (.node n pfx big ch)) :
    View P st.baNext st.mem (wordOf b (.node n pfx big ch)) (q0 ++ p) n pfx big ch := (hh.at hz.at).view b

/-- The scan either reaches the end, or stops with enough values and the stack `S'` still to do. -/
theorem scanLoop_tree {P st b0 t0 q0} (hh : Held P st t0 q0) : ∀ (fuel : Nat) {S p b n pfx big ch pre cs} (pf : List Word),
    Zip b0 t0 S p b (.node n pfx big ch) → slotsOf big ch = pre ++ cs → 2 * nodesAt ch cs + wtS S < fuel →
    scanLoop st fuel (wordOf b (.node n pfx big ch)) pre.length (S.map Fr.pos) pf =
        .ok (pf ++ vals (leavesAt ch cs ++ remS S), none) ∨
    ∃ S' p' b' t' pf', Zip b0 t0 S' p' b' t' ∧ t'.isNode = true ∧ S' ≠ [] ∧ prefetchLength < pf'.length ∧
      pf' ++ vals (remS S') = pf ++ vals (leavesAt ch cs ++ remS S) ∧
      scanLoop st fuel (wordOf b (.node n pfx big ch)) pre.length (S.map Fr.pos) pf =
        (storeResume st (S'.map Fr.pos)).map fun key => (pf', some key) := by
  intro fuel
  induction fuel with
  | zero => intro S p b n pfx big ch pre cs pf _ _ h; omega
  | succ fuel ih =>
    intro S p b n pfx big ch pre cs pf hz hs hfuel
    have hv := hh.kids_view hz
    have hcs := cnt_split hs
    rcases hg : scanG ch cs with ⟨l, r⟩
    have hk := hv.scanKids hs
    rw [hg] at hk
    have hl := scanG_leaves hg
    have hn := scanG_nodes hg
    unfold scanLoop
    rw [hv.addr, nodeData_view hv]
    simp only [bind, Except.bind]
    rw [hv.skip]
    simp only
    rw [hv.count, show cnt big ch - pre.length = cs.length by omega, hk]
    cases r with
    | some x =>
      obtain ⟨c, rest⟩ := x
      obtain ⟨pre', e, hnode⟩ := scanG_suffix hg
      have hs' : slotsOf big ch = (pre ++ pre') ++ c :: rest := by rw [hs, e, List.append_assoc]
      have hc' := cnt_split hs'
      simp only [List.length_cons] at hc'
      simp only [Option.map_some]
      rw [show cnt big ch - (rest.length + 1) = (pre ++ pre').length by omega, hv.afterKid hs']
      simp only
      cases hck : ch c with
      | empty => rw [hck] at hnode; cases hnode
      | leaf => rw [hck] at hnode; cases hnode
      | node n2 pfx2 big2 ch2 =>
        have hz' := Zip.cons hz hs'
        rw [hck] at hz'
        have hw : ((⟨b, n, pfx, big, ch, skipEmpty ch rest⟩ : Fr)).wt = 1 + 2 * nodesAt ch rest := by
          simp only [Fr.wt, nodesAt_skipEmpty]
        have hrem : ((⟨b, n, pfx, big, ch, skipEmpty ch rest⟩ : Fr)).rem = leavesAt ch rest := leavesAt_skipEmpty ch rest
        have hle : (skipEmpty ch rest).length ≤ rest.length := (skipEmpty_suffix ch rest).length_le
        have hpos : Fr.pos ⟨b, n, pfx, big, ch, skipEmpty ch rest⟩ =
            ⟨wordOf b (.node n pfx big ch), cnt big ch - (skipEmpty ch rest).length,
              decide (cnt big ch - (skipEmpty ch rest).length < cnt big ch)⟩ := by
          unfold Fr.pos Fr.t
          congr 1
          cases hse : skipEmpty ch rest with
          | nil => simp
          | cons x y =>
            rw [hse] at hle
            simp only [List.length_cons] at hle
            simp only [List.isEmpty_cons, Bool.not_false, List.length_cons]
            exact (decide_eq_true (by omega)).symm
        simp only at hl hn
        rw [hck] at hl hn
        simp only [nodesAt_slotsOf n2 pfx2 big2 ch2] at hn
        have h1 := ih (pre := []) (cs := slotsOf big2 ch2) (pf ++ vals l) hz' rfl (by rw [wtS_cons, hw]; omega)
        rw [List.map_cons, hpos, remS_cons, hrem, leavesAt_slotsOf n2 pfx2 big2 ch2] at h1
        have he : pf ++ vals l ++ vals ((T.node n2 pfx2 big2 ch2).leaves ++ (leavesAt ch rest ++ remS S)) =
            pf ++ vals (leavesAt ch cs ++ remS S) := by rw [hl]; simp
        rw [he] at h1
        exact h1
    | none =>
      simp only [Option.map_none]
      cases S with
      | nil => left; rw [hl]; simp [pure, Except.pure]
      | cons f S =>
        have he : pf ++ vals l ++ vals (remS (f :: S)) = pf ++ vals (leavesAt ch cs ++ remS (f :: S)) := by rw [hl]; simp
        simp only [List.map_cons]
        by_cases hlen : (pf ++ vals l).length > prefetchLength
        · rw [if_pos hlen]
          refine .inr ⟨f :: S, p, b, _, pf ++ vals l, hz, rfl, by simp, hlen, he, ?_⟩
          simp only [List.map_cons]
          cases storeResume st (f.pos :: S.map Fr.pos) <;> rfl
        · rw [if_neg hlen]
          obtain ⟨⟨p', hz'⟩, ⟨pre', hs'⟩, -⟩ := hz.top
          have hc' := cnt_split hs'
          have h1 := ih (pf ++ vals l) hz' hs' (by
            have : Fr.wt f = 1 + 2 * nodesAt f.ch f.rest := rfl
            rw [wtS_cons] at hfuel; omega)
          have hk : (Fr.pos f).k = pre'.length := by show cnt f.big f.ch - f.rest.length = _; omega
          rw [hk]
          have he2 : pf ++ vals l ++ vals (leavesAt f.ch f.rest ++ remS S) = pf ++ vals (leavesAt ch cs ++ remS (f :: S)) := by
            rw [hl]; simp [Fr.rem]
          rw [he2] at h1
          exact h1

/-! ## Storing the position -/

theorem View.getRaw {P nb m raw q n pfx big ch} (hv : View P nb m raw q n pfx big ch) {pre : List UInt8} {c : UInt8}
    {rest : List UInt8} (h : slotsOf big ch = pre ++ c :: rest) :
    Slice.get m ⟨n, blockSlots - n % blockSlots⟩ (prefixSlots pfx.length + pre.length) = .ok (wordOf c (ch c)) := by
  have h1 := hv.getAt h
  have hf := hv.fits
  have hc := cnt_split h
  simp only [List.length_cons] at hc
  unfold Slice.get at h1 ⊢
  rw [if_pos (by show _ < blockSlots - n % blockSlots - prefixSlots pfx.length; omega)] at h1
  rw [if_pos (by show _ < blockSlots - n % blockSlots; omega)]
  rw [← h1]
  simp only [Nat.add_assoc]

theorem Held.keyByte {P st t q} (h : Held P st t q) (b : UInt8) (he : t.isEmpty = false) : keyByte (wordOf b t) = b :=
  keyByte_wordOf (Nat.le_trans st.baNext_le h.nb) h.inb he

/-- What `resumeLoop` does with a frame after its prefix. -/
def resumeTail (st : St) (n slots k : Nat) (acc : List UInt8) : List ItPos → Res (List UInt8)
  | [] => (Slice.get st.mem ⟨n, blockSlots - n % blockSlots⟩ (slots + k)).map fun a => acc ++ [keyByte a]
  | p :: ps => resumeLoop st false (p :: ps) acc

/-- The partial key up to an inner frame. -/
theorem resumeLoop_tree {P st b0 t0 q0} (hh : Held P st t0 q0) {S p b t} (hz : Zip b0 t0 S p b t) :
    ∀ {n pfx big ch}, t = .node n pfx big ch → ∀ (k : Nat) (more : Bool) (ps : List ItPos),
    resumeLoop st true ((S.map Fr.pos).reverse ++ ⟨wordOf b t, k, more⟩ :: ps) [] =
      resumeTail st n (prefixSlots pfx.length) k (p ++ pfx) ps := by
  induction hz with
  | nil =>
    intro n pfx big ch e k more ps
    subst e
    have hv := hh.view b0
    simp only [List.map_nil, List.reverse_nil, List.nil_append]
    unfold resumeLoop
    simp only [if_true]
    rw [hv.addr, nodeData_view hv]
    simp only [bind, Except.bind]
    rw [hv.append]
    simp only [List.nil_append]
    cases ps with
    | nil =>
      simp only [resumeTail]
      cases Slice.get st.mem ⟨n, blockSlots - n % blockSlots⟩ (prefixSlots pfx.length + k) <;> rfl
    | cons => rfl
  | @cons S p b n1 pfx1 big1 ch1 pre c rest hz hs ih =>
    intro n pfx big ch e k more ps
    have hz' := Zip.cons hz hs
    rw [e] at hz'
    have hv := hh.kids_view hz'
    have hkb := (hh.at hz'.at).keyByte c (by rfl)
    have h1 := ih rfl (cnt big1 ch1 - (skipEmpty ch1 rest).length) (!(skipEmpty ch1 rest).isEmpty) (⟨wordOf c (ch1 c), k, more⟩ :: ps)
    rw [List.map_cons, List.reverse_cons, List.append_assoc, List.singleton_append]
    have h2 : resumeLoop st false (⟨wordOf c (ch1 c), k, more⟩ :: ps) (p ++ pfx1) =
        resumeTail st n (prefixSlots pfx.length) k (p ++ pfx1 ++ [c] ++ pfx) ps := by
      clear h1
      rw [e]
      unfold resumeLoop
      simp only [Bool.false_eq_true, if_false]
      rw [hv.addr, nodeData_view hv]
      simp only [bind, Except.bind]
      rw [hv.append, hkb]
      cases ps with
      | nil =>
        simp only [resumeTail]
        cases Slice.get st.mem ⟨n, blockSlots - n % blockSlots⟩ (prefixSlots pfx.length + k) <;> rfl
      | cons => rfl
    exact h1.trans h2

/-- Trimming the stack. -/
theorem trimStack_tree {b0 t0} : ∀ {S : List Fr} {p b t}, Zip b0 t0 S p b t → S ≠ [] →
    ∃ (f : Fr) (S' : List Fr) (p' : List UInt8), Zip b0 t0 S' p' f.b f.t ∧ (∃ pre, slotsOf f.big f.ch = pre ++ f.rest) ∧
      (∀ c r, f.rest = c :: r → (f.ch c).isEmpty = false) ∧
      trimStack (S.map Fr.pos) = (f :: S').map Fr.pos ∧ remS S = f.rem ++ remS S' ∧
      (f.rest = [] → S' = [] ∧ ∀ g ∈ S, g.rest = [])
  | [f], p, b, t, hz, _ => by
    obtain ⟨⟨p', hz'⟩, hs, hsk⟩ := hz.top
    exact ⟨f, [], p', hz', hs, hsk, rfl, rfl, fun h => ⟨rfl, fun g hg => by simp only [List.mem_singleton] at hg; rw [hg]; exact h⟩⟩
  | f :: g :: S, p, b, t, hz, _ => by
    obtain ⟨⟨p', hz'⟩, hs, hsk⟩ := hz.top
    simp only [List.map_cons, trimStack]
    by_cases hm : f.pos.more = true
    · rw [if_pos hm]
      refine ⟨f, g :: S, p', hz', hs, hsk, rfl, rfl, fun h => ?_⟩
      simp [Fr.pos, h] at hm
    · rw [if_neg hm]
      have hr : f.rest = [] := by simpa [Fr.pos] using hm
      obtain ⟨f', S', p'', h1, h2, h3', h3, h4, h5⟩ := trimStack_tree hz' (by simp)
      refine ⟨f', S', p'', h1, h2, h3', h3, ?_, fun h => ⟨(h5 h).1, fun g' hg' => ?_⟩⟩
      · rw [remS_cons, h4]; simp [Fr.rem, hr]
      · rcases List.mem_cons.1 hg' with e | hg'
        · rw [e]; exact hr
        · exact (h5 h).2 g' hg'

/-- The stored position: it names the next child of the innermost frame with further children. -/
theorem storeResume_tree {P st b0 t0 q0} (hh : Held P st t0 q0) {S p b t} (hz : Zip b0 t0 S p b t) (hne : S ≠ []) :
    (∀ g ∈ S, g.rest = []) ∨
    ∃ (f : Fr) (S' : List Fr) (p' pre : List UInt8) (c : UInt8) (rest : List UInt8), Zip b0 t0 S' p' f.b f.t ∧ slotsOf f.big f.ch = pre ++ c :: rest ∧ (f.ch c).isEmpty = false ∧
      remS S = leavesAt f.ch (c :: rest) ++ remS S' ∧ storeResume st (S.map Fr.pos) = .ok (p' ++ f.pfx ++ [c]) := by
  obtain ⟨f, S', p', h1, ⟨pre, h2⟩, hsk, h3, h4, h5⟩ := trimStack_tree hz hne
  cases hr : f.rest with
  | nil => exact .inl (h5 hr).2
  | cons c rest =>
    rw [hr] at h2
    have hv := hh.kids_view h1
    have hc := cnt_split h2
    refine .inr ⟨f, S', p', pre, c, rest, h1, h2, hsk c rest hr, by rw [h4, ← hr]; rfl, ?_⟩
    unfold storeResume
    rw [h3, List.map_cons, List.reverse_cons]
    have h6 := resumeLoop_tree hh h1 rfl f.pos.k f.pos.more []
    have hk : f.pos.k = pre.length := by
      show cnt f.big f.ch - f.rest.length = _
      rw [hr]; omega
    have h7 : resumeLoop st true ((S'.map Fr.pos).reverse ++ [f.pos]) [] = _ := h6
    rw [h7]
    simp only [resumeTail]
    rw [hk, hv.getRaw h2]
    have hb := ((hh.at h1.at).kid c).keyByte c (hsk c rest hr)
    simp only [Except.map, hb]

/-! ## Going back to the position -/

theorem findIdx_kids {f : UInt8 → Word} {c : UInt8} : ∀ {pre rest : List UInt8}, (∀ d ∈ pre ++ c :: rest, keyByte (f d) = d) →
    (pre ++ c :: rest).Pairwise (· < ·) →
    ((pre ++ c :: rest).map f).findIdx? (fun a => keyByte a = c) = some pre.length
  | [], rest, h, _ => by
    simp only [List.nil_append, List.map_cons, List.findIdx?_cons, List.length_nil]
    rw [if_pos (by simp [h c (by simp)])]
  | d :: pre, rest, h, hp => by
    have hd : d ≠ c := by
      have := List.rel_of_pairwise_cons hp (a' := c) (by simp)
      intro e
      rw [e] at this
      exact absurd this (UInt8.lt_irrefl _)
    simp only [List.cons_append, List.map_cons, List.findIdx?_cons]
    rw [if_neg (by simp [h d (by simp), hd]), findIdx_kids (fun x hx => h x (by simp only [List.cons_append, List.mem_cons]; exact .inr hx)) (List.Pairwise.of_cons hp)]
    simp

/-- One step of the walk along the stored position. -/
theorem seekLoop_step {P st q b n pfx big ch} (hv : View P st.baNext st.mem (wordOf b (.node n pfx big ch)) q n pfx big ch)
    {pre rest : List UInt8} {c : UInt8} (hs : slotsOf big ch = pre ++ c :: rest) (he : (ch c).isEmpty = false)
    (p r : List UInt8) (fuel : Nat) (stack : List ItPos) :
    seekLoop st (p ++ pfx ++ c :: r) (fuel + 1) p.length (wordOf b (.node n pfx big ch)) stack =
      if (ch c).isLf = true then .ok (wordOf b (.node n pfx big ch), pre.length, stack)
      else seekLoop st (p ++ pfx ++ c :: r) fuel (p.length + pfx.length + 1) (wordOf c (ch c))
        (Fr.pos ⟨b, n, pfx, big, ch, skipEmpty ch rest⟩ :: stack) := by
  have hidx : idx big ch c = pre.length := by
    have hlt : pre.length < (slotsOf big ch).length := by rw [hs]; simp
    have := getElem_slotsOf_idx hlt
    have e : (slotsOf big ch)[pre.length] = c := by simp [hs]
    rwa [e] at this
  have hc' := cnt_split hs
  simp only [List.length_cons] at hc'
  have hle : (skipEmpty ch rest).length ≤ rest.length := (skipEmpty_suffix ch rest).length_le
  have hpos : Fr.pos ⟨b, n, pfx, big, ch, skipEmpty ch rest⟩ =
      ⟨wordOf b (.node n pfx big ch), cnt big ch - (skipEmpty ch rest).length,
        decide (cnt big ch - (skipEmpty ch rest).length < cnt big ch)⟩ := by
    unfold Fr.pos Fr.t
    congr 1
    cases hse : skipEmpty ch rest with
    | nil => simp
    | cons x y =>
      rw [hse] at hle
      simp only [List.length_cons] at hle
      simp only [List.isEmpty_cons, Bool.not_false, List.length_cons]
      exact (decide_eq_true (by omega)).symm
  have hafter := hv.afterKid hs
  rw [hpos]
  rw [seekLoop, if_pos (by simp; omega), hv.addr, nodeData_view hv]
  simp only [bind, Except.bind]
  rw [hv.skip]
  simp only
  rw [if_neg (by simp)]
  have hka : keyAt (p ++ pfx ++ c :: r) (p.length + pfx.length) = .ok c := by
    rw [← List.length_append]; exact keyAt_append rfl
  rw [hka]
  simp only
  have hzero : wordOf c (ch c) ≠ 0 := by rw [ne_eq, hv.kid_zero, he]; simp
  have hkb : keyByte (wordOf c (ch c)) = c := hv.keyByte_kid c (present_eq_true.2 he)
  by_cases hb : big = true
  · rw [if_pos (hv.big_iff.2 hb), hv.getBig hb]
    simp only
    rw [if_pos ⟨hzero, hkb⟩, hv.kid_isLeaf]
    have hct : c.toNat = pre.length := by rw [← hidx]; simp [idx, hb]
    rw [hct, hv.count]
    unfold afterKid at hafter
    rw [if_pos (by rw [← hv.count]; exact hv.big_iff.2 hb)] at hafter
    rw [hafter]
    simp only [pure, Except.pure]
  · have hb' : big = false := by simpa using hb
    rw [if_neg (by rw [hv.big_iff]; exact hb), hv.count, hv.wordsAll rfl]
    simp only
    rw [hs]
    have hfi := findIdx_kids (f := fun c => wordOf c (ch c)) (c := c) (pre := pre) (rest := rest) (fun d hd => by
      rw [← hs] at hd
      rcases mem_slotsOf.1 hd with h | h
      · exact absurd h hb
      · exact hv.keyByte_kid d (present_eq_true.2 h)) (by rw [← hs]; exact slotsOf_sorted big ch)
    rw [hfi]
    simp only
    have hget : ((pre ++ c :: rest).map fun c => wordOf c (ch c)).getD pre.length 0 = wordOf c (ch c) := by simp [List.getD]
    rw [hget, hv.kid_isLeaf]
    unfold afterKid at hafter
    rw [if_neg (by rw [← hv.count, hv.big_iff]; exact hb)] at hafter
    rw [← Except.ok.inj hafter]
    simp only [pure, Except.pure]

/-- The walk along the stored position rebuilds the stack. -/
theorem seekLoop_tree {P st b0 t0 q0} (hh : Held P st t0 q0) {S p b t} (hz : Zip b0 t0 S p b t) : t.isNode = true →
    ∀ (r : List UInt8) (fuel : Nat), seekLoop st (p ++ r) (fuel + S.length) 0 (wordOf b0 t0) [] =
      seekLoop st (p ++ r) fuel p.length (wordOf b t) (S.map Fr.pos) := by
  induction hz with
  | nil => intro _ r fuel; rfl
  | @cons S p b n pfx big ch pre c rest hz hs ih =>
    intro hn r fuel
    have h1 := ih rfl (pfx ++ c :: r) (fuel + 1)
    have hv := hh.kids_view hz
    have he : (ch c).isEmpty = false := by
      cases hck : ch c with
      | empty => rw [hck] at hn; cases hn
      | leaf => rfl
      | node => rfl
    have hlf : (ch c).isLf = false := by
      cases hck : ch c with
      | empty => rw [hck] at hn; cases hn
      | leaf => rw [hck] at hn; cases hn
      | node => rfl
    have h2 := seekLoop_step hv hs he p r fuel (S.map Fr.pos)
    rw [if_neg (by rw [hlf]; simp)] at h2
    have e : p ++ pfx ++ [c] ++ r = p ++ pfx ++ c :: r := by simp
    rw [e, List.length_cons, show fuel + (S.length + 1) = fuel + 1 + S.length by omega]
    have e2 : (p ++ pfx ++ [c]).length = p.length + pfx.length + 1 := by simp [Nat.add_assoc]
    rw [e2, List.map_cons, ← h2]
    rw [List.append_assoc]
    exact h1

/-! ## One batch -/

theorem Zip.weight {b0 t0 S p b t} (h : Zip b0 t0 S p b t) : 2 * t.nodes + wtS S ≤ 2 * t0.nodes := by
  induction h with
  | nil => simp
  | @cons S p b n pfx big ch pre c rest _ hs ih =>
    rw [nodesAt_slotsOf, hs] at ih
    rw [wtS_cons]
    simp only [Fr.wt, nodesAt_skipEmpty]
    simp only [nodesAt_append, nodesAt_cons] at ih
    omega

theorem Zip.length_le {b0 t0 S p b t} (h : Zip b0 t0 S p b t) : S.length ≤ p.length := by
  induction h with
  | nil => simp
  | cons _ _ ih => simp only [List.length_cons, List.length_append, List.length_nil]; omega

/-- The last child is a leaf. -/
def T.LastLeaf : T → Prop
  | .node _ _ _ ch => ∃ d, (ch d).isLf = true ∧ ∀ e, d < e → (ch e).isEmpty = true
  | _ => False

theorem mem_skipEmpty {ch : UInt8 → T} {d : UInt8} (hd : (ch d).isEmpty = false) : ∀ {cs : List UInt8}, d ∈ cs → d ∈ skipEmpty ch cs
  | c :: cs, h => by
    unfold skipEmpty
    rw [List.dropWhile_cons]
    split
    · rename_i hc
      rcases List.mem_cons.1 h with e | h
      · rw [← e, hd] at hc; cases hc
      · exact mem_skipEmpty hd h
    · exact h

theorem isNode_nonempty {t : T} (h : t.isNode = true) : t.isEmpty = false := by
  cases t with
  | empty => cases h
  | leaf => rfl
  | node => rfl

/-- If the last child of the start node is a leaf, the outermost frame always has something left. -/
theorem Zip.not_exhausted {b0 t0 S p b t} (h : Zip b0 t0 S p b t) (hl : t0.LastLeaf) (hn : t.isNode = true) (hne : S ≠ []) :
    ∃ g ∈ S, g.rest ≠ [] := by
  induction h with
  | nil => exact absurd rfl hne
  | @cons S p b n pfx big ch pre c rest hz hs ih =>
    cases S with
    | cons g S =>
      obtain ⟨g', h1, h2⟩ := ih rfl (by simp)
      exact ⟨g', List.mem_cons_of_mem _ h1, h2⟩
    | nil =>
      cases hz
      obtain ⟨d, hd, hle⟩ := hl
      refine ⟨_, List.mem_cons_self, ?_⟩
      have hde : (ch d).isEmpty = false := by
        cases hcd : ch d with
        | empty => rw [hcd] at hd; cases hd
        | leaf => rfl
        | node => rfl
      have hmem : d ∈ slotsOf big ch := mem_slotsOf.2 (.inr hde)
      have hsort := slotsOf_sorted big ch
      rw [hs] at hmem hsort
      have hdr : d ∈ rest := by
        rcases List.mem_append.1 hmem with h | h
        · have hlt : d < c := (List.pairwise_append.1 hsort).2.2 d h c (by simp)
          have := hle c hlt
          rw [isNode_nonempty hn] at this; cases this
        · rcases List.mem_cons.1 h with e | h
          · rw [e] at hd
            cases hcd : ch c with
            | empty => rw [hcd] at hd; cases hd
            | leaf => rw [hcd] at hn; cases hn
            | node => rw [hcd] at hd; cases hd
          · exact h
      exact List.ne_nil_of_mem (mem_skipEmpty hde hdr)

/-- The stored position `key` leaves the leaves `L` to do. -/
def Resumes (b0 : UInt8) (t0 : T) (key : List UInt8) (L : List (Key × Word)) : Prop :=
  (key = [] ∧ L = t0.leaves) ∨
  ∃ (f : Fr) (S : List Fr) (p pre : List UInt8) (c : UInt8) (rest : List UInt8), Zip b0 t0 S p f.b f.t ∧
    slotsOf f.big f.ch = pre ++ c :: rest ∧ (f.ch c).isEmpty = false ∧ key = p ++ f.pfx ++ [c] ∧
    L = leavesAt f.ch (c :: rest) ++ remS S

/-- The values of one batch, and the stored position. -/
def batch (st : St) (fuel : Nat) (key : List UInt8) (raw : Word) : Res (List Word × Option (List UInt8)) := do
  let (raw, nextChild, stack) ← seekLoop st key (key.length + 1) 0 raw []
  scanLoop st fuel raw nextChild stack []

theorem remS_exhausted : ∀ {S : List Fr}, (∀ g ∈ S, g.rest = []) → remS S = []
  | [], _ => rfl
  | f :: S, h => by
    rw [remS_cons, remS_exhausted fun g hg => h g (List.mem_cons_of_mem _ hg)]
    simp [Fr.rem, h f List.mem_cons_self]

theorem batch_tree {P st b0 t0 q0} (hh : Held P st t0 q0) (hn : t0.isNode = true) {key L} (hr : Resumes b0 t0 key L) {fuel : Nat}
    (hfuel : 2 * t0.nodes < fuel) :
    batch st fuel key (wordOf b0 t0) = .ok (vals L, none) ∨
    (∃ pf key' L', batch st fuel key (wordOf b0 t0) = .ok (pf, some key') ∧ pf ++ vals L' = vals L ∧ prefetchLength < pf.length ∧
      Resumes b0 t0 key' L') ∨
    (prefetchLength < L.length ∧ ¬ t0.LastLeaf ∧
      ∃ r : Res (List UInt8), batch st fuel key (wordOf b0 t0) = r.map fun key => (vals L, some key)) := by
  -- the position the scan starts from
  have hpos : ∃ S p b n pfx big ch pre cs, Zip b0 t0 S p b (.node n pfx big ch) ∧ slotsOf big ch = pre ++ cs ∧
      L = leavesAt ch cs ++ remS S ∧
      seekLoop st key (key.length + 1) 0 (wordOf b0 t0) [] = .ok (wordOf b (.node n pfx big ch), pre.length, S.map Fr.pos) := by
    rcases hr with ⟨rfl, rfl⟩ | ⟨⟨b, n, pfx, big, ch, r0⟩, S, p, pre, c, rest, hz, hs, he, rfl, rfl⟩
    · cases t0 with
      | empty => cases hn
      | leaf => cases hn
      | node n pfx big ch =>
        refine ⟨[], [], b0, n, pfx, big, ch, [], slotsOf big ch, .nil, rfl, ?_, rfl⟩
        rw [leavesAt_slotsOf n pfx]; simp
    · simp only [Fr.t] at hz hs he
      have hv := hh.kids_view hz
      have hlen := hz.length_le
      obtain ⟨fu, hfu⟩ : ∃ fu, (p ++ pfx ++ [c]).length + 1 = fu + 1 + 1 + S.length :=
        ⟨(p ++ pfx ++ [c]).length + 1 - S.length - 2, by simp only [List.length_append, List.length_cons, List.length_nil]; omega⟩
      have h1 := seekLoop_tree hh hz rfl (pfx ++ [c]) (fu + 1 + 1)
      rw [← List.append_assoc, ← hfu] at h1
      have h2 := seekLoop_step hv hs he p [] (fu + 1) (S.map Fr.pos)
      show ∃ S' p' b' n' pfx' big' ch' pre' cs', _ ∧ _ ∧ leavesAt ch (c :: rest) ++ remS S = _ ∧
        seekLoop st (p ++ pfx ++ [c]) _ 0 _ [] = _
      rw [h1]
      have h3 : seekLoop st (p ++ pfx ++ [c]) (fu + 1 + 1) p.length (wordOf b (T.node n pfx big ch)) (S.map Fr.pos) = _ := h2
      show ∃ S' p' b' n' pfx' big' ch' pre' cs', _ ∧ _ ∧ _ ∧
        seekLoop st (p ++ pfx ++ [c]) (fu + 1 + 1) p.length (wordOf b (T.node n pfx big ch)) (S.map Fr.pos) = _
      rw [h3]
      by_cases hlf : (ch c).isLf = true
      · rw [if_pos hlf]
        exact ⟨S, p, b, n, pfx, big, ch, pre, c :: rest, hz, hs, rfl, rfl⟩
      · rw [if_neg hlf]
        cases hck : ch c with
        | empty => rw [hck] at he; cases he
        | leaf => rw [hck] at hlf; exact absurd rfl hlf
        | node n2 pfx2 big2 ch2 =>
          have hz' := Zip.cons hz hs
          rw [hck] at hz'
          refine ⟨_, _, c, n2, pfx2, big2, ch2, [], slotsOf big2 ch2, hz', rfl, ?_, ?_⟩
          · rw [remS_cons, leavesAt_slotsOf n2 pfx2, leavesAt_cons, hck]
            simp [Fr.rem, leavesAt_skipEmpty]
          · unfold seekLoop
            rw [if_neg (by simp; omega)]
            rfl
  obtain ⟨S, p, b, n, pfx, big, ch, pre, cs, hz, hs, hL, hseek⟩ := hpos
  have hw := hz.weight
  rw [nodesAt_slotsOf, hs] at hw
  simp only [nodesAt_append] at hw
  unfold batch
  rw [hseek]
  simp only [bind, Except.bind]
  rw [hL]
  rcases scanLoop_tree hh fuel [] hz hs (by omega) with h | ⟨S', p', b', t', pf', hz', hn', hne, hlen, heq, h⟩
  · left; simpa using h
  · right
    rw [h]
    rw [List.nil_append] at heq
    rcases storeResume_tree hh hz' hne with hex | ⟨f, S2, p2, pre2, c2, rest2, h1, h2, h3, h4, h5⟩
    · right
      have e : pf' = vals (leavesAt ch cs ++ remS S) := by rw [← heq, remS_exhausted hex]; simp
      refine ⟨by rw [← vals_length, ← e]; exact hlen, fun hll => ?_, _, by rw [e]⟩
      obtain ⟨g, hg, hg'⟩ := hz'.not_exhausted hll hn' hne
      exact hg' (hex g hg)
    · left
      rw [h5]
      exact ⟨pf', _, remS S', rfl, heq, hlen, .inr ⟨f, S2, p2, pre2, c2, rest2, h1, h2, h3, rfl, h4⟩⟩

/-! ## `Next` -/

theorem Zip.suffix {b0 t0 S p b t} (h : Zip b0 t0 S p b t) : t.leaves ++ remS S <:+ t0.leaves := by
  induction h with
  | nil => simp
  | @cons S p b n pfx big ch pre c rest _ hs ih =>
    refine List.IsSuffix.trans ?_ ih
    rw [← leavesAt_slotsOf n pfx, hs, remS_cons]
    simp only [Fr.rem, leavesAt_skipEmpty]
    refine ⟨leavesAt ch pre, ?_⟩
    simp [leavesAt]

theorem Resumes.suffix {b0 t0 key L} (h : Resumes b0 t0 key L) : L <:+ t0.leaves := by
  rcases h with ⟨-, rfl⟩ | ⟨f, S, p, pre, c, rest, hz, hs, -, -, rfl⟩
  · exact List.suffix_refl _
  · refine List.IsSuffix.trans ?_ hz.suffix
    unfold Fr.t
    rw [← leavesAt_slotsOf f.n f.pfx, hs]
    refine ⟨leavesAt f.ch pre, ?_⟩
    simp [leavesAt]

/-- State of an iterator over the leaves of `t0` with the values `R` still to be returned.  `brk`: the stored position may be
wrong after the last value. -/
structure ItInv (b0 : UInt8) (t0 : T) (sp : Key) (brk : Prop) (it : Iter) (R : List Word) : Prop where
  sp : it.searchPrefix = sp
  pf : t0.isNode = false → it.prefetched = []
  rem : ∃ L, R = it.prefetched.drop it.pp ++ vals L ∧
    ((it.done = true ∧ L = []) ∨ (it.done = false ∧ Resumes b0 t0 it.resumeAt L) ∨ (brk ∧ it.done = false ∧ L = []))

theorem ItInv.new (b0 : UInt8) (t0 : T) (sp : Key) (brk : Prop) : ItInv b0 t0 sp brk (Iter.new sp) (vals t0.leaves) :=
  ⟨rfl, fun _ => rfl, _, rfl, .inr (.inl ⟨rfl, .inl ⟨rfl, rfl⟩⟩)⟩

theorem Iter.next_tree {P st b0 t0 q0 d} {sp : Key} (hh : Held P st t0 q0) (hps : partialSearch st sp = .ok (wordOf b0 t0, d))
    {brk : Prop} (hbrk : prefetchLength < t0.leaves.length → ¬ t0.LastLeaf → brk) {fuel : Nat} (hfuel : 2 * t0.nodes < fuel)
    {it : Iter} {R : List Word} (hi : ItInv b0 t0 sp brk it R) :
    (∃ it', it.next st fuel = .ok (R.head?.isSome, it') ∧ (∀ v, R.head? = some v → it'.value = v) ∧ ItInv b0 t0 sp brk it' R.tail) ∨
    (brk ∧ ∃ e, it.next st fuel = .error e) ∨ (brk ∧ R = []) := by
  obtain ⟨hsp, hpf, L, hR, hL⟩ := hi
  unfold Iter.next
  split
  · -- a prefetched value
    rename_i v hv
    have hd : it.prefetched.drop it.pp = v :: it.prefetched.drop (it.pp + 1) := by
      obtain ⟨h1, h2⟩ := List.getElem?_eq_some_iff.1 hv
      rw [List.drop_eq_getElem_cons h1, h2]
    rw [hd] at hR
    subst hR
    exact .inl ⟨_, rfl, fun w h => (by simpa using h), hsp, hpf, L, rfl, hL⟩
  · rename_i hv
    have hd : it.prefetched.drop it.pp = [] := List.drop_eq_nil_of_le (List.getElem?_eq_none_iff.1 hv)
    rw [hd, List.nil_append] at hR
    by_cases hdone : it.done = true
    · rw [if_pos hdone]
      rcases hL with ⟨-, rfl⟩ | ⟨h, -⟩ | ⟨-, h, -⟩
      · subst hR
        refine .inl ⟨it, rfl, ?_, hsp, hpf, [], by simp [hd], .inl ⟨hdone, rfl⟩⟩
        intro w h; cases h
      · rw [hdone] at h; cases h
      · rw [hdone] at h; cases h
    rw [if_neg hdone]
    have hstart : Iter.start st it.searchPrefix = .ok (wordOf b0 t0, d) := by
      rw [hsp]
      unfold Iter.start
      split
      · exact hps
      · rename_i h
        have e : sp = [] := List.length_eq_zero_iff.1 (by omega)
        rw [e] at hps
        exact hps
    rcases hL with ⟨h, -⟩ | ⟨-, hres⟩ | ⟨hb, -, hL⟩
    · exact absurd h hdone
    rotate_left
    · exact .inr (.inr ⟨hb, by rw [hR, hL]; rfl⟩)
    simp only [bind, Except.bind]
    rw [hstart]
    simp only
    rw [hh.isLeaf]
    cases ht0 : t0 with
    | empty =>
      rw [if_pos (by rfl)]
      have hL : L = [] := by
        have := hres.suffix
        rw [ht0] at this
        exact List.suffix_nil.1 this
      subst hL
      subst hR
      exact .inl ⟨_, rfl, fun w h => (by cases h), hsp, fun _ => hpf (by rw [ht0]; rfl), [], by simp [hd], .inl ⟨rfl, rfl⟩⟩
    | leaf k v =>
      have hL : L = [(k, v)] := by
        rw [ht0] at hres
        rcases hres with ⟨-, rfl⟩ | ⟨f, S, p, pre, c, rest, hz, -, -, -, -⟩
        · rfl
        · exact absurd hz.at.inv_leaf.2 (by simp [Fr.t])
      subst hL
      subst hR
      rw [if_neg (by rw [← ht0, hh.zero, ht0]; simp)]
      simp only [T.isLf, if_true]
      refine .inl ⟨_, rfl, fun w h => ?_, hsp, fun _ => hpf (by rw [ht0]; rfl), [], ?_, .inl ⟨rfl, rfl⟩⟩
      · simp only [vals, List.map_cons, List.map_nil, List.head?_cons, Option.some.injEq] at h
        simp only [wordOf, leafValue_buildLeaf]
        exact h
      · simp [vals, hpf (by rw [ht0]; rfl)]
    | node n pfx big ch =>
      rw [← ht0, if_neg (by rw [hh.zero, ht0]; simp)]
      rw [if_neg (by rw [ht0]; simp [T.isLf])]
      have hnode : t0.isNode = true := by rw [ht0]; rfl
      have hb := batch_tree hh hnode hres hfuel
      unfold batch at hb
      simp only [bind, Except.bind] at hb
      cases hseek : seekLoop st it.resumeAt (it.resumeAt.length + 1) 0 (wordOf b0 t0) [] with
      | error e =>
        rw [hseek] at hb
        rcases hb with hb | ⟨_, _, _, hb, _⟩ | ⟨h1, h2, r, hr⟩
        · cases hb
        · cases hb
        · exact .inr (.inl ⟨hbrk (Nat.lt_of_lt_of_le h1 hres.suffix.length_le) h2, e, rfl⟩)
      | ok x =>
        obtain ⟨raw, nc, stack⟩ := x
        rw [hseek] at hb
        simp only at hb ⊢
        rcases hb with hb | ⟨pf, key', L', hb, hpfl, hlen, hres'⟩ | ⟨h1, h2, r, hr⟩
        · rw [hb]
          simp only
          cases hL' : vals L with
          | nil =>
            rw [hL'] at hR
            subst hR
            exact .inl ⟨_, rfl, fun w h => (by cases h), hsp, fun h => (by rw [hnode] at h), [], by simp, .inl ⟨rfl, rfl⟩⟩
          | cons v vs =>
            rw [hL'] at hR
            subst hR
            exact .inl ⟨_, rfl, fun w h => (by simpa using h), hsp, fun h => (by rw [hnode] at h; cases h), [], by simp, .inl ⟨rfl, rfl⟩⟩
        · rw [hb]
          simp only
          cases pf with
          | nil => simp [prefetchLength] at hlen
          | cons v vs =>
            rw [← hpfl] at hR
            subst hR
            exact .inl ⟨_, rfl, fun w h => (by simpa using h), hsp, fun h => (by rw [hnode] at h; cases h), L', by simp, .inr (.inl ⟨by simpa using hdone, hres'⟩)⟩
        · have hbk := hbrk (Nat.lt_of_lt_of_le h1 hres.suffix.length_le) h2
          rw [hr]
          cases r with
          | error e => exact .inr (.inl ⟨hbk, e, rfl⟩)
          | ok key =>
            simp only [Except.map]
            cases hL' : vals L with
            | nil =>
              have : (vals L).length = 0 := by rw [hL']; rfl
              rw [vals_length] at this
              omega
            | cons v vs =>
              rw [hL'] at hR
              subst hR
              exact .inl ⟨_, rfl, fun w h => (by simpa using h), hsp, fun h => (by rw [hnode] at h; cases h), [], by simp, .inr (.inr ⟨hbk, by simpa using hdone, rfl⟩)⟩

theorem Iter.run_tree {P st b0 t0 q0 d} {sp : Key} (hh : Held P st t0 q0) (hps : partialSearch st sp = .ok (wordOf b0 t0, d))
    {brk : Prop} (hbrk : prefetchLength < t0.leaves.length → ¬ t0.LastLeaf → brk) {fuel : Nat} (hfuel : 2 * t0.nodes < fuel) :
    ∀ (n : Nat) {it : Iter} {R : List Word}, ItInv b0 t0 sp brk it R →
    Iter.run st fuel n it = .ok ((List.range n).map fun i => R[i]?) ∨ (brk ∧ ((∃ e, Iter.run st fuel n it = .error e) ∨ R.length < n)) := by
  intro n
  induction n with
  | zero => intro it R _; exact .inl rfl
  | succ n ih =>
    intro it R hi
    have hlist : (List.range (n + 1)).map (fun i => R[i]?) = R.head? :: (List.range n).map fun i => R.tail[i]? := by
      rw [List.range_succ_eq_map, List.map_cons, List.map_map]
      congr 1
      · rw [List.head?_eq_getElem?]
      · congr 1
        funext i
        rw [Function.comp, List.getElem?_tail]
    rw [hlist]
    rcases Iter.next_tree hh hps hbrk hfuel hi with ⟨it', h1, h2, h3⟩ | ⟨hb, e, h⟩ | ⟨hb, rfl⟩
    · unfold Iter.run
      rw [h1]
      simp only [bind, Except.bind]
      rcases ih h3 with h | ⟨hb, ⟨e, h⟩ | h⟩
      · rw [h]
        left
        simp only [pure, Except.pure]
        congr 2
        cases hR : R.head? with
        | none => rfl
        | some v => simp [h2 v hR]
      · rw [h]
        exact .inr ⟨hb, .inl ⟨e, rfl⟩⟩
      · right
        refine ⟨hb, .inr ?_⟩
        rw [List.length_tail] at h
        omega
    · unfold Iter.run
      rw [h]
      exact .inr ⟨hb, .inl ⟨e, rfl⟩⟩
    · exact .inr ⟨hb, .inr (by simp)⟩

end Radix
