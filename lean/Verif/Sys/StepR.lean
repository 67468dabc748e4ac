import Verif.Sys.StepD
/-!
# Steps of lookups preserve the invariant
-/
namespace Radix
open T

theorem rankOf_mono {f : UInt8 → Bool} {c d : UInt8} (h : d ≤ c) : rankOf f d ≤ rankOf f c := by
  unfold rankOf
  induction kidsOf f with
  | nil => simp
  | cons b l ih =>
    simp only [List.filter_cons]
    by_cases hb : b < d
    · have hb' : b < c := UInt8.lt_of_lt_of_le hb h
      simp only [hb, hb', decide_true, if_true, List.length_cons]
      omega
    · simp only [hb, decide_false, Bool.false_eq_true, if_false]
      split
      · simp only [List.length_cons]; omega
      · exact ih

section
variable {env : Env} {s : Sys} {σ : Spec} {t : T} {seen : Nat → T → Prop} (hI : Inv env s σ t seen) {a : Nat}
include hI

/-- The node of a tree seen, as it is in memory now. -/
theorem Inv.lookAt (hact : (s.proc a).active = true) {t0 : T} (h0 : seen a t0) {q n pfx big ch} (hat : At t0 q (.node n pfx big ch)) :
    ∃ ch' t1, SameKids big ch ch' ∧ (∀ b, View env.P s.st.baNext s.st.mem (wordOf b (.node n pfx big ch')) q n pfx big ch') ∧
      seen a t1 ∧ At t1 q (.node n pfx big ch') := by
  have hm := hI.mem
  rcases hm.trail a t0 q n pfx big ch hact h0 hat with ⟨ch', h1, h2⟩ | ⟨t1, ch', h1, h2, h3, h4, h5⟩
  · exact ⟨ch', t, h2, fun b => hm.core.view h1, hm.now a hact, h1⟩
  · have hok1 := hm.ok a t1 hact h1
    exact ⟨ch', t1, h3, fun b => ⟨hm.core.bn, h2.inBlocks hok1.inb, by simpa using h2.wf hok1.wf, h4, b, rfl⟩, h1, h2⟩

/-- What the reference in the slot of byte `k` gives. -/
theorem RIn.done {key q n pfx big ch data k depth} (hact : (s.proc a).active = true) (hr : RIn (seen a) key q n pfx big ch data k depth)
    {t1 : T} (hs1 : seen a t1) {ch' : UInt8 → T} (hat1 : At t1 q (.node n pfx big ch')) :
    (ch' k = .empty → Absent (seen a) key) ∧
    (∀ lk lv, ch' k = .leaf lk lv → CandK (seen a) key (leafValue (wordOf k (ch' k)))) ∧
    ((ch' k).isNode = true → SeenRef (seen a) (wordOf k (ch' k)) (q ++ pfx ++ [k])) := by
  have hok1 := hI.mem.ok a t1 hact hs1
  have hhas : (∀ t, seen a t → ∃ v, t.Has key v) → ∃ v, (ch' k).Has key v := by
    intro hall
    obtain ⟨v, hv⟩ := hall t1 hs1
    exact ⟨v, (hat1.child k).has_of_prefix hok1.wf hv (by simpa using hr.trk hall)⟩
  refine ⟨?_, ?_, ?_⟩
  · intro he
    apply Absent.of_not
    intro hall
    obtain ⟨v, hv⟩ := hhas hall
    rw [he] at hv
    exact hv
  · intro lk lv he
    refine ⟨t1, lk, lv, hs1, ?_, by rw [he]; simp [wordOf], ?_⟩
    · have := hat1.child k
      rw [he] at this
      exact this.has ⟨rfl, rfl⟩
    · intro hall
      obtain ⟨v, hv⟩ := hhas hall
      rw [he] at hv
      exact hv.1
  · intro hn
    have := hat1.child k
    cases he : ch' k with
    | empty => rw [he] at hn; simp at hn
    | leaf => rw [he] at hn; simp at hn
    | node n' pfx' b' kids =>
      rw [he] at this
      exact ⟨t1, hs1, k, n', pfx', b', kids, this, rfl⟩

theorem stepR_start {key : Key} (hp : s.proc a = .rd (.start key)) :
    ∃ ph', stepR s.st (.start key) = .ok ph' ∧ Inv env (s.set a s.st (.rd ph')) σ t seen := by
  have hact : (s.proc a).active = true := by rw [hp]; rfl
  have hu : (s.proc a).unl = .none := by rw [hp]; rfl
  have htl : (s.proc a).plain = true := by rw [hp]; rfl
  have hP := hI.proc a
  rw [hp] at hP
  obtain ⟨hkey, hb⟩ := hP
  have hnow := hI.mem.now a hact
  obtain ⟨k, hka, hkh⟩ := keyAt_zero hkey
  simp only [stepR]
  rcases rootWord_cases hI.mem.core with ⟨e1, e⟩ | ⟨lk, lv, e1, e⟩ | ⟨n, pfx, big, ch, e1, e2, e3, e4⟩
  · rw [if_neg (by rw [e]; decide)]
    refine ⟨_, rfl, hI.moveLocal hact hu htl rfl rfl rfl ⟨hkey, hb, .inl ⟨e, ⟨t, hnow, ?_⟩, Nat.zero_le _⟩⟩⟩
    rw [e1]; intro v h; exact h
  · rw [if_pos (by rw [e]; simp), hka]
    simp only [bind, Except.bind, pure, Except.pure]
    by_cases hb : keyByte s.st.root = k
    · rw [if_pos hb]
      refine ⟨_, rfl, hI.moveLocal hact hu htl rfl rfl rfl ⟨by simp, ?_⟩⟩
      intro v hv
      obtain rfl := Option.some.inj hv
      refine ⟨t, lk, lv, hnow, by rw [e1]; exact ⟨rfl, rfl⟩, by rw [e]; simp, ?_⟩
      intro hall
      obtain ⟨v, hv⟩ := hall t hnow
      rw [e1] at hv
      exact hv.1
    · rw [if_neg hb]
      refine ⟨_, rfl, hI.moveLocal hact hu htl rfl rfl rfl ⟨fun _ => ⟨t, hnow, ?_⟩, by simp⟩⟩
      rw [e1]
      rintro v ⟨rfl, _⟩
      apply hb
      rw [e]
      simp only [keyByte_buildLeaf]
      cases lk with
      | nil => exact absurd rfl hkey
      | cons c ks => simpa using hkh
  · rw [if_neg (by rw [e4]; simp)]
    have hsr : SeenRef (seen a) s.st.root [] := ⟨t, hnow, 0, n, pfx, big, ch, by rw [e1]; exact .here _, e2⟩
    exact ⟨_, rfl, hI.moveLocal hact hu htl rfl rfl rfl ⟨hkey, hb, .inr ⟨[], hsr, rfl, Nat.zero_le _, fun _ => List.nil_prefix⟩⟩⟩

theorem stepR_node {key : Key} {raw : Word} {depth : Nat} (hp : s.proc a = .rd (.node key raw depth)) :
    ∃ ph', stepR s.st (.node key raw depth) = .ok ph' ∧ Inv env (s.set a s.st (.rd ph')) σ t seen := by
  have hact : (s.proc a).active = true := by rw [hp]; rfl
  have hu : (s.proc a).unl = .none := by rw [hp]; rfl
  have htl : (s.proc a).plain = true := by rw [hp]; rfl
  have hP := hI.proc a
  rw [hp] at hP
  obtain ⟨hkey, hb, ⟨rfl, habs, hdep⟩ | ⟨q, hs, hd, hdep, htrk⟩⟩ := hP
  · have e1 : nodeAddr 0 = 0 := by decide
    have e2 : nodePlen 0 = 0 := by decide
    have e3 : nodeCount 0 = 1 := by decide
    have e6 : s.st.nodeData 0 = .ok ⟨0, blockSlots⟩ := by
      unfold St.nodeData; rw [if_pos (by simpa using hb)]; rfl
    simp only [stepR]
    rw [e1, e6]
    simp only [bind, Except.bind, e2, skipPrefix, Nat.lt_irrefl, if_false, gt_iff_lt, pure, Except.pure, Nat.add_zero, e3]
    by_cases hd : depth ≥ key.length
    · rw [if_pos hd]
      exact ⟨_, rfl, hI.moveLocal hact hu htl rfl rfl rfl ⟨fun _ => habs, by simp⟩⟩
    · rw [if_neg hd]
      have hka : keyAt key depth = .ok key[depth] := by
        unfold keyAt; rw [List.getElem?_eq_getElem (by omega)]
      rw [hka]
      simp only
      rw [if_neg (by decide), if_pos (by decide)]
      exact ⟨_, rfl, hI.moveLocal hact hu htl rfl rfl rfl ⟨hkey, hb, .inl ⟨rfl, rfl, rfl, habs, by omega⟩⟩⟩
  · obtain ⟨n, pfx, big, ch, hv, ⟨t1, hs1, hat1⟩, _⟩ := hI.mem.look hact hs
    have hok1 := hI.mem.ok a t1 hact hs1
    simp only [stepR]
    rw [hv.addr, nodeData_view hv]
    simp only [bind, Except.bind]
    rw [hv.skip]
    simp only
    by_cases hlt : depth + pfx.length ≥ key.length
    · rw [if_pos hlt]
      refine ⟨_, rfl, hI.moveLocal hact hu htl rfl rfl rfl ⟨fun _ => ?_, by simp⟩⟩
      apply Absent.of_not
      intro hall
      obtain ⟨k', rest, v, h1, h2⟩ := htrk.child hs1 hok1.wf hat1 hall
      rw [h1] at hlt
      simp only [List.length_append, List.length_cons] at hlt
      omega
    · rw [if_neg hlt]
      obtain ⟨k, hkb⟩ : ∃ k, key[depth + pfx.length]? = some k := by
        rw [List.getElem?_eq_getElem (by omega)]; exact ⟨_, rfl⟩
      have hka : keyAt key (depth + pfx.length) = .ok k := by unfold keyAt; rw [hkb]
      rw [hka]
      simp only
      have htrk' : Trk (seen a) key (q ++ pfx ++ [k]) := by
        intro hall
        obtain ⟨k', rest, v, h1, h2⟩ := htrk.child hs1 hok1.wf hat1 hall
        have e : k' = k := by
          rw [hd, h1, ← List.length_append, List.getElem?_append_right (Nat.le_refl _)] at hkb
          simpa using hkb
        subst e
        exact ⟨rest, by rw [h1]; simp⟩
      have hfit := hv.fits
      have hr : RIn (seen a) key q n pfx big ch
          ⟨n + prefixSlots pfx.length, blockSlots - n % blockSlots - prefixSlots pfx.length⟩ k (depth + pfx.length) :=
        ⟨⟨t1, hs1, hat1⟩, rfl, by show _ ≤ blockSlots - n % blockSlots - prefixSlots pfx.length; omega,
          by rw [hd]; simp, by omega, hkb, htrk'⟩
      cases hbig : big with
      | true =>
        rw [if_pos (hv.big_iff.2 hbig)]
        subst hbig
        exact ⟨_, rfl, hI.moveLocal hact hu htl rfl rfl rfl ⟨hkey, hb, q, n, pfx, ch, hr⟩⟩
      | false =>
        rw [if_neg (by rw [hv.big_iff, hbig]; simp), hv.count, if_pos (by show _ ≤ blockSlots - n % blockSlots - prefixSlots pfx.length; omega)]
        subst hbig
        refine ⟨_, rfl, hI.moveLocal hact hu htl rfl rfl rfl ⟨hkey, hb, .inr ⟨q, n, pfx, ch, hr, rfl, ?_, ?_⟩⟩⟩
        · have := hv.wf.2.1 rfl
          show 0 < cntOf (present ch)
          omega
        · intro c _ h; omega

theorem stepR_slot {key : Key} {data : Slice} {k : UInt8} {depth : Nat} (hp : s.proc a = .rd (.slot key data k depth)) :
    ∃ ph', stepR s.st (.slot key data k depth) = .ok ph' ∧ Inv env (s.set a s.st (.rd ph')) σ t seen := by
  have hact : (s.proc a).active = true := by rw [hp]; rfl
  have hu : (s.proc a).unl = .none := by rw [hp]; rfl
  have htl : (s.proc a).plain = true := by rw [hp]; rfl
  have hP := hI.proc a
  rw [hp] at hP
  obtain ⟨hkey, hb, q, n, pfx, ch, hr⟩ := hP
  obtain ⟨t0, hs0, hat0⟩ := hr.seen
  obtain ⟨ch', t1, hsk, hv, hs1, hat1⟩ := hI.lookAt hact hs0 hat0
  obtain ⟨g1, g2, g3⟩ := RIn.done hI hact hr hs1 hat1
  have hlen := hr.len
  have hk := k.toNat_lt
  have hw := (hv 0).mem.kid k (.inl rfl)
  simp only [childSlot, idx, if_true] at hw
  simp only [cnt, if_true] at hlen
  simp only [stepR, Slice.get]
  rw [if_pos (by omega), hr.base, hw]
  simp only [bind, Except.bind, pure, Except.pure, (hv 0).kid_zero, (hv 0).kid_isLeaf]
  cases hck : ch' k with
  | empty =>
    simp only [isEmpty_empty, if_true]
    exact ⟨_, rfl, hI.moveLocal hact hu htl rfl rfl rfl ⟨fun _ => g1 hck, by simp⟩⟩
  | leaf lk lv =>
    have := g2 lk lv hck
    rw [hck] at this
    simp only [isEmpty_leaf, isLf_leaf, Bool.false_eq_true, if_false, if_true]
    refine ⟨_, rfl, hI.moveLocal hact hu htl rfl rfl rfl ⟨by simp, ?_⟩⟩
    intro v hv
    obtain rfl := Option.some.inj hv
    exact this
  | node n' pfx' b' kids =>
    have := g3 (by rw [hck]; rfl)
    rw [hck] at this
    have hl := hr.lt
    simp only [isEmpty_node, isLf_node, Bool.false_eq_true, if_false]
    refine ⟨_, rfl, hI.moveLocal hact hu htl rfl rfl rfl ⟨hkey, hb, .inr ⟨q ++ pfx ++ [k], this, ?_, by omega, hr.trk⟩⟩⟩
    rw [hr.dep]; simp only [List.length_append, List.length_singleton]

theorem stepR_scan {key : Key} {data : Slice} {i count : Nat} {k : UInt8} {depth : Nat} (hp : s.proc a = .rd (.scan key data i count k depth)) :
    ∃ ph', stepR s.st (.scan key data i count k depth) = .ok ph' ∧ Inv env (s.set a s.st (.rd ph')) σ t seen := by
  have hact : (s.proc a).active = true := by rw [hp]; rfl
  have hu : (s.proc a).unl = .none := by rw [hp]; rfl
  have htl : (s.proc a).plain = true := by rw [hp]; rfl
  have hP := hI.proc a
  rw [hp] at hP
  obtain ⟨hkey, hb, ⟨rfl, rfl, rfl, habs, hlt⟩ | ⟨q, n, pfx, ch, hr, hcount, hi, hsm⟩⟩ := hP
  · have e4 : keyByte 0 = 0 := by decide
    have e5 : isLeaf 0 = false := by decide
    simp only [stepR, Slice.get]
    rw [if_pos (by decide)]
    simp only [bind, Except.bind, pure, Except.pure, Nat.add_zero, hI.mem.core.zero]
    rw [if_pos (.inr (by decide))]
    rw [e4, e5]
    split
    · exact ⟨_, rfl, hI.moveLocal hact hu htl rfl rfl rfl ⟨hkey, hb, .inl ⟨rfl, habs, by omega⟩⟩⟩
    · exact ⟨_, rfl, hI.moveLocal hact hu htl rfl rfl rfl ⟨fun _ => habs, by simp⟩⟩
  · obtain ⟨t0, hs0, hat0⟩ := hr.seen
    obtain ⟨ch', t1, hsk, hv, hs1, hat1⟩ := hI.lookAt hact hs0 hat0
    obtain ⟨g1, g2, g3⟩ := RIn.done hI hact hr hs1 hat1
    have hpr : present ch' = present ch := hsk.present
    have hlen := hr.len
    have hl := hr.lt
    simp only [cnt, Bool.false_eq_true, if_false] at hlen
    have hi' : i < (kidsOf (present ch)).length := by rw [hcount] at hi; exact hi
    obtain ⟨c, hc⟩ : ∃ c, c = (kidsOf (present ch))[i] := ⟨_, rfl⟩
    have hcp : present ch c = true := by rw [hc]; exact mem_kidsOf.1 (List.getElem_mem hi')
    have hcr : rankOf (present ch) c = i := by rw [hc]; exact rankOf_kidsOf hi'
    have hcp' : (ch' c).isEmpty = false := present_eq_true.1 (by rw [hpr]; exact hcp)
    have hw := (hv 0).mem.kid c (.inr hcp')
    simp only [childSlot, idx, Bool.false_eq_true, if_false, hpr, hcr] at hw
    have hkb : keyByte (wordOf c (ch' c)) = c := (hv 0).keyByte_kid c (by rw [hpr]; exact hcp)
    simp only [stepR, Slice.get]
    rw [if_pos (by omega), hr.base, hw]
    simp only [bind, Except.bind, pure, Except.pure, hkb, (hv 0).kid_isLeaf]
    by_cases hstop : c ≥ k ∨ i + 1 ≥ count
    · rw [if_pos hstop]
      by_cases hck : c = k
      · subst hck
        rw [if_pos rfl]
        cases hck : ch' c with
        | empty => rw [hck] at hcp'; simp at hcp'
        | leaf lk lv =>
          have := g2 lk lv hck
          rw [hck] at this
          simp only [isLf_leaf, if_true]
          refine ⟨_, rfl, hI.moveLocal hact hu htl rfl rfl rfl ⟨by simp, ?_⟩⟩
          intro v hv
          obtain rfl := Option.some.inj hv
          exact this
        | node n' pfx' b' kids =>
          have := g3 (by rw [hck]; rfl)
          rw [hck] at this
          simp only [isLf_node, Bool.false_eq_true, if_false]
          refine ⟨_, rfl, hI.moveLocal hact hu htl rfl rfl rfl ⟨hkey, hb, .inr ⟨q ++ pfx ++ [c], this, ?_, by omega, hr.trk⟩⟩⟩
          rw [hr.dep]; simp only [List.length_append, List.length_singleton]
      · rw [if_neg hck]
        refine ⟨_, rfl, hI.moveLocal hact hu htl rfl rfl rfl ⟨fun _ => g1 ?_, by simp⟩⟩
        cases hke : (ch' k).isEmpty with
        | true => exact T.isEmpty_eq_true.1 hke
        | false =>
          exfalso
          have hkp : present ch k = true := by rw [← hpr]; exact present_eq_true.2 hke
          have hkr := rankOf_lt hkp
          have h1 : ¬ rankOf (present ch) k < i := fun h => absurd (hsm k hkp h) (UInt8.lt_irrefl k)
          have h2 : rankOf (present ch) k ≠ i := fun h => hck (rankOf_inj hcp hkp (by rw [hcr, h]))
          rcases hstop with h | h
          · have := rankOf_mono (f := present ch) h
            omega
          · omega
    · rw [if_neg hstop]
      have h1 : ¬ c ≥ k := fun h => hstop (.inl h)
      have h2 : ¬ i + 1 ≥ count := fun h => hstop (.inr h)
      refine ⟨_, rfl, hI.moveLocal hact hu htl rfl rfl rfl ⟨hkey, hb, .inr ⟨q, n, pfx, ch, hr, hcount, by omega, ?_⟩⟩⟩
      intro d hd hdr
      by_cases hdi : rankOf (present ch) d < i
      · exact hsm d hd hdi
      · have : d = c := rankOf_inj hd hcp (by rw [hcr]; omega)
        subst this
        exact UInt8.not_le.1 h1

/-- Every step of a lookup succeeds and preserves the invariant. -/
theorem stepR_inv {ph : RPh} (hp : s.proc a = .rd ph) (h1 : ∀ key res, ph ≠ .done key res) :
    ∃ ph', stepR s.st ph = .ok ph' ∧ Inv env (s.set a s.st (.rd ph')) σ t seen := by
  cases ph with
  | start key => exact stepR_start hI hp
  | node key raw depth => exact stepR_node hI hp
  | slot key data k depth => exact stepR_slot hI hp
  | scan key data i count k depth => exact stepR_scan hI hp
  | done key res => exact absurd rfl (h1 key res)

end

end Radix
