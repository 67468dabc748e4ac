import Verif.Sys.ReadIter
/-!
# `MinKey` and `MaxKey` while other operations run

For an operation of `a` that runs during the whole call (the call itself reserves no epoch).
-/
set_option autoImplicit false
namespace Radix
open T

section
variable {env : Env} {a : Nat} {L : Prop} {E : Panic → Prop}

section
variable {raw : Word} {q : Key} {n : Nat} {pfx : List UInt8} {big : Bool} {ch : UInt8 → T}

/-- The first child that is not empty. -/
theorem safe_firstKid : ∀ {cs pre : List UInt8} {S : T → Prop}, Ref S raw q n pfx big ch → slotsOf big ch = pre ++ cs →
    Safe env a L E (fun S' r => ∀ w, r = some w → w ≠ 0 ∧ ∃ cs1 c cs2, cs = cs1 ++ c :: cs2 ∧ (∀ k, Always S' k → ¬ Reg (q ++ pfx) cs1 k) ∧ Obs S' (q ++ pfx ++ [c]) w)
      (firstKidP (kidSlice n pfx) cs.length pre.length) S
  | [], pre, S, hr, hs => by intro w h; cases h
  | c :: cs, pre, S, hr, hs => by
    refine Safe.bind (safe_kid hr hs) ?_
    rintro S1 w hS1 ⟨h1, -, -⟩
    have ih := safe_firstKid (cs := cs) (pre := pre ++ [c]) (hr.mono hS1) (by rw [hs]; simp)
    rw [List.length_append, List.length_singleton] at ih
    by_cases h0 : w = 0
    · rw [if_neg (by simpa using h0)]
      refine ih.mono ?_
      intro S2 r hS2 h w' hw'
      obtain ⟨hne, cs1, d, cs2, e, h2, h3⟩ := h w' hw'
      refine ⟨hne, c :: cs1, d, cs2, by rw [e]; rfl, fun k hk h => ?_, h3⟩
      rcases Reg_cons.1 h with h | h
      · cases h1 with
        | none _ no => exact no k (hk.anti hS2) h
        | leaf k v l => subst h0; exact absurd l (by decide)
        | node n' pfx' big' ch' r => exact r.ne h0
      · exact h2 k hk h
    · rw [if_pos h0]
      intro w' hw'
      cases hw'
      exact ⟨h0, [], c, cs, rfl, fun k _ => Reg_nil, h1⟩

/-- The last child that is not empty. -/
theorem safe_lastKid : ∀ (m : Nat) {cs post : List UInt8} {S : T → Prop}, cs.length = m → Ref S raw q n pfx big ch → slotsOf big ch = cs ++ post →
    Safe env a L E (fun S' r => ∀ w, r = some w → w ≠ 0 ∧ ∃ cs1 c cs2, cs = cs1 ++ c :: cs2 ∧ (∀ k, Always S' k → ¬ Reg (q ++ pfx) cs2 k) ∧ Obs S' (q ++ pfx ++ [c]) w)
      (lastKidP (kidSlice n pfx) m) S
  | 0, cs, post, S, hl, hr, hs => by intro w h; cases h
  | m + 1, cs, post, S, hl, hr, hs => by
    obtain ⟨ds, c, rfl⟩ : ∃ ds c, cs = ds ++ [c] := by
      have hne : cs ≠ [] := by rintro rfl; simp at hl
      exact ⟨cs.dropLast, cs.getLast hne, (List.dropLast_concat_getLast hne).symm⟩
    have hm : ds.length = m := by simpa using hl
    subst hm
    refine Safe.bind (safe_kid hr (pre := ds) (c := c) (rest := post) (by rw [hs]; simp)) ?_
    rintro S1 w hS1 ⟨h1, -, -⟩
    by_cases h0 : w = 0
    · rw [if_neg (by simpa using h0)]
      refine (safe_lastKid ds.length (cs := ds) (post := c :: post) rfl (hr.mono hS1) (by rw [hs]; simp)).mono ?_
      intro S2 r hS2 h w' hw'
      obtain ⟨hne, cs1, d, cs2, e, h2, h3⟩ := h w' hw'
      refine ⟨hne, cs1, d, cs2 ++ [c], by rw [e]; simp, fun k hk h => ?_, h3⟩
      rcases Reg_append.1 h with h | h
      · exact h2 k hk h
      · have h : q ++ pfx ++ [c] <+: k := by simpa [Reg_cons] using h
        cases h1 with
        | none _ no => exact no k (hk.anti hS2) h
        | leaf k v l => subst h0; exact absurd l (by decide)
        | node n' pfx' big' ch' r => exact r.ne h0
    · rw [if_pos h0]
      intro w' hw'
      cases hw'
      exact ⟨h0, ds, c, [], rfl, fun k _ => Reg_nil, h1⟩

end

/-- The pair was stored at some moment below `B`, and no key below `q` that was stored at every moment comes before it (`lt k' k`). -/
def Extreme (lt : Key → Key → Prop) (S : T → Prop) (B q : Key) (v : Word) : Prop :=
  ∃ k v', v = trunc55 v' ∧ Once S k v' ∧ B <+: k ∧ ∀ k', Always S k' → q <+: k' → ¬ lt k' k

/-- One step down to the child `c`, with no key before those of that child. -/
theorem Extreme.up {lt : Key → Key → Prop} (hasymm : ∀ {k k'}, lt k k' → ¬ lt k' k) {S : T → Prop} {raw : Word} {q : Key} {n : Nat} {pfx : List UInt8} {big : Bool} {ch : UInt8 → T} (r : Ref S raw q n pfx big ch)
    {c : UInt8} {v : Word} (h : Extreme lt S (q ++ pfx ++ [c]) (q ++ pfx ++ [c]) v) {B : Key} (hB : B <+: q ++ pfx)
    (ho : ∀ d ∈ slotsOf big ch, d = c ∨ (∀ k, Always S k → ¬ q ++ pfx ++ [d] <+: k) ∨ ∀ k k', q ++ pfx ++ [c] <+: k → q ++ pfx ++ [d] <+: k' → lt k k') :
    Extreme lt S B q v := by
  obtain ⟨k, v', hv, ho', hp, hm⟩ := h
  refine ⟨k, v', hv, ho', (hB.trans (List.prefix_append _ _)).trans hp, fun k' hk hq => ?_⟩
  obtain ⟨d, hd, hpd⟩ := r.covers k' hk hq
  rcases ho d hd with rfl | h | h
  · exact hm k' hk hpd
  · exact absurd hpd (h k' hk)
  · exact hasymm (h k k' hp hpd)

theorem Obs.extreme {lt : Key → Key → Prop} (hirr : ∀ k, ¬ lt k k) {S : T → Prop} {p : Key} {w : Word} (h : Obs S p w) (hl : isLeaf w = true) : Extreme lt S p p (leafValue w) := by
  cases h with
  | none h => subst h; exact absurd hl (by decide)
  | leaf k v l hv hp st only =>
    refine ⟨k, v, hv, st, hp, fun k' hk hp' => ?_⟩
    rw [only k' hk hp']
    exact hirr k
  | node n pfx big ch r => rw [r.leaf] at hl; cases hl

theorem safe_minLoop (hE : E .fuel) : ∀ (fuel : Nat) {S : T → Prop} {raw : Word} {q : Key} {n : Nat} {pfx : List UInt8} {big : Bool} {ch : UInt8 → T},
    Ref S raw q n pfx big ch → ∀ {B : Key}, B <+: q ++ pfx → Safe env a L E (fun S' r => ∀ v, r = some v → Extreme (· < ·) S' B q v) (minLoopP fuel raw) S
  | 0, _, _, _, _, _, _, _, _, _, _ => hE
  | fuel + 1, S, raw, q, n, pfx, big, ch, hr, B, hB => by
    have hfits := hr.fields.fits
    unfold minLoopP
    refine Safe.bind (safe_nodeData hr) ?_
    rintro S1 _ hS1 rfl
    refine Safe.bind (safe_skip (hr.mono hS1)) ?_
    rintro S2 _ hS2 rfl
    have hr2 := (hr.mono hS1).mono hS2
    simp only
    have hsorted := slotsOf_sorted big ch
    have hgo : ∀ {S3 : T → Prop} (hS3 : ∀ x, S2 x → S3 x) {cs1 cs2 : List UInt8} {c : UInt8} {w : Word}, slotsOf big ch = cs1 ++ c :: cs2 → w ≠ 0 →
        (∀ k, Always S3 k → ¬ Reg (q ++ pfx) cs1 k) → Obs S3 (q ++ pfx ++ [c]) w →
        Safe env a L E (fun S' r => ∀ v, r = some v → Extreme (· < ·) S' B q v) (if isLeaf w then pure (some (leafValue w)) else minLoopP fuel w) S3 := by
      intro S3 hS3 cs1 cs2 c w hs hne hno ho
      have hup : ∀ {S4 : T → Prop}, (∀ x, S3 x → S4 x) → ∀ {v}, Extreme (· < ·) S4 (q ++ pfx ++ [c]) (q ++ pfx ++ [c]) v → Extreme (· < ·) S4 B q v := by
        intro S4 hS4 v h
        refine h.up key_lt_asymm ((hr2.mono hS3).mono hS4) hB fun d hd => ?_
        rw [hs] at hd hsorted
        have hp := List.pairwise_append.1 hsorted
        rcases List.mem_append.1 hd with hd | hd
        · exact .inr (.inl fun k hk h => hno k (hk.anti hS4) ⟨d, hd, h⟩)
        · rcases List.mem_cons.1 hd with rfl | hd
          · exact .inl rfl
          · exact .inr (.inr fun k k' h1 h2 => lt_of_kids (List.rel_of_pairwise_cons hp.2.1 hd) h1 h2)
      by_cases hl : isLeaf w = true
      · rw [if_pos hl]
        intro v hv
        cases hv
        exact hup (fun _ h => h) (ho.extreme List.lt_irrefl hl)
      · rw [if_neg hl]
        cases ho with
        | none h => exact absurd h hne
        | leaf _ _ l => exact absurd l hl
        | node n' pfx' big' ch' r =>
          refine (safe_minLoop hE fuel r (List.prefix_append _ _)).mono ?_
          intro S4 r hS4 h v hv
          exact hup hS4 (h v hv)
    rw [hr.fields.count]
    by_cases hb : big = true
    · rw [if_pos (hr.fields.big_iff.2 hb)]
      refine Safe.bind (Q := fun _ _ => True) (Safe.retOk (v := ()) (if_pos (by show _ ≤ blockSlots - n % blockSlots - prefixSlots pfx.length; omega)) trivial) ?_
      intro S3 _ hS3 _
      have := safe_firstKid (env := env) (a := a) (L := L) (E := E) (cs := slotsOf big ch) (pre := []) (hr2.mono hS3) rfl
      rw [length_slotsOf] at this
      refine Safe.bind this ?_
      intro S4 r hS4 h
      cases r with
      | none => intro v hv; cases hv
      | some w =>
        obtain ⟨hne, cs1, c, cs2, hs, hno, ho⟩ := h w rfl
        exact hgo (fun x hx => hS4 x (hS3 x hx)) hs hne hno ho
    · have hb' : big = false := by simpa using hb
      rw [if_neg (by rw [hr.fields.big_iff]; exact hb)]
      have hsm := hr.fields.small hb'
      obtain ⟨c, cs2, hs⟩ : ∃ c cs2, slotsOf big ch = [] ++ c :: cs2 := by
        cases hs : slotsOf big ch with
        | nil => rw [← length_slotsOf, hs] at hsm; simp at hsm
        | cons c cs => exact ⟨c, cs, rfl⟩
      refine Safe.bind (safe_kid hr2 hs) ?_
      rintro S3 w hS3 ⟨h1, -, h3⟩
      exact hgo hS3 hs (h3 hb') (fun k _ => Reg_nil) h1

theorem safe_maxLoop (hE : E .fuel) : ∀ (fuel : Nat) {S : T → Prop} {raw : Word} {q : Key} {n : Nat} {pfx : List UInt8} {big : Bool} {ch : UInt8 → T},
    Ref S raw q n pfx big ch → ∀ {B : Key}, B <+: q ++ pfx → Safe env a L E (fun S' r => ∀ v, r = some v → Extreme (· > ·) S' B q v) (maxLoopP fuel raw) S
  | 0, _, _, _, _, _, _, _, _, _, _ => hE
  | fuel + 1, S, raw, q, n, pfx, big, ch, hr, B, hB => by
    have hfits := hr.fields.fits
    unfold maxLoopP
    refine Safe.bind (safe_nodeData hr) ?_
    rintro S1 _ hS1 rfl
    refine Safe.bind (safe_skip (hr.mono hS1)) ?_
    rintro S2 _ hS2 rfl
    have hr2 := (hr.mono hS1).mono hS2
    simp only
    have hsorted := slotsOf_sorted big ch
    have hgo : ∀ {S3 : T → Prop} (hS3 : ∀ x, S2 x → S3 x) {cs1 cs2 : List UInt8} {c : UInt8} {w : Word}, slotsOf big ch = cs1 ++ c :: cs2 → w ≠ 0 →
        (∀ k, Always S3 k → ¬ Reg (q ++ pfx) cs2 k) → Obs S3 (q ++ pfx ++ [c]) w →
        Safe env a L E (fun S' r => ∀ v, r = some v → Extreme (· > ·) S' B q v) (if isLeaf w then pure (some (leafValue w)) else maxLoopP fuel w) S3 := by
      intro S3 hS3 cs1 cs2 c w hs hne hno ho
      have hup : ∀ {S4 : T → Prop}, (∀ x, S3 x → S4 x) → ∀ {v}, Extreme (· > ·) S4 (q ++ pfx ++ [c]) (q ++ pfx ++ [c]) v → Extreme (· > ·) S4 B q v := by
        intro S4 hS4 v h
        refine h.up (fun h => key_lt_asymm h) ((hr2.mono hS3).mono hS4) hB fun d hd => ?_
        rw [hs] at hd hsorted
        have hp := List.pairwise_append.1 hsorted
        rcases List.mem_append.1 hd with hd | hd
        · exact .inr (.inr fun k k' h1 h2 => lt_of_kids (hp.2.2 d hd c (by simp)) h2 h1)
        · rcases List.mem_cons.1 hd with rfl | hd
          · exact .inl rfl
          · exact .inr (.inl fun k hk h => hno k (hk.anti hS4) ⟨d, hd, h⟩)
      by_cases hl : isLeaf w = true
      · rw [if_pos hl]
        intro v hv
        cases hv
        exact hup (fun _ h => h) (ho.extreme (lt := (· > ·)) List.lt_irrefl hl)
      · rw [if_neg hl]
        cases ho with
        | none h => exact absurd h hne
        | leaf _ _ l => exact absurd l hl
        | node n' pfx' big' ch' r =>
          refine (safe_maxLoop hE fuel r (List.prefix_append _ _)).mono ?_
          intro S4 r hS4 h v hv
          exact hup hS4 (h v hv)
    rw [hr.fields.count]
    by_cases hb : big = true
    · rw [if_pos (hr.fields.big_iff.2 hb)]
      have hlen : (slotsOf big ch).length = 256 := by rw [length_slotsOf]; simp [cnt, hb]
      refine Safe.bind (safe_lastKid 256 (cs := slotsOf big ch) (post := []) hlen hr2 (by simp)) ?_
      intro S4 r hS4 h
      cases r with
      | none => intro v hv; cases hv
      | some w =>
        obtain ⟨hne, cs1, c, cs2, hs, hno, ho⟩ := h w rfl
        exact hgo hS4 hs hne hno ho
    · have hb' : big = false := by simpa using hb
      rw [if_neg (by rw [hr.fields.big_iff]; exact hb)]
      have hsm := hr.fields.small hb'
      have hlen := length_slotsOf big ch
      obtain ⟨ds, c, hs⟩ : ∃ ds c, slotsOf big ch = ds ++ c :: [] := by
        have hne : slotsOf big ch ≠ [] := by intro h; rw [h] at hlen; simp at hlen; omega
        exact ⟨_, _, (List.dropLast_concat_getLast hne).symm⟩
      have hds : cnt big ch - 1 = ds.length := by rw [← hlen, hs]; simp
      rw [hds]
      refine Safe.bind (safe_kid hr2 hs) ?_
      rintro S3 w hS3 ⟨h1, -, h3⟩
      exact hgo hS3 hs (h3 hb') (fun k _ => Reg_nil) h1

/-- The value returned by `MinKey` or `MaxKey`: it was stored at some moment; no key with the prefix that was stored at every moment comes before
its key; and its key has the prefix, if such a key exists. -/
def EndOf (lt : Key → Key → Prop) (S : T → Prop) (sp : Key) (v : Word) : Prop :=
  ∃ k v', v = trunc55 v' ∧ Once S k v' ∧ ∀ k', Always S k' → sp <+: k' → sp <+: k ∧ ¬ lt k' k

theorem Found.endOf {lt : Key → Key → Prop} (hirr : ∀ k, ¬ lt k k) {S : T → Prop} {sp : Key} {w : Word} (h : Found S sp w) (hl : isLeaf w = true) :
    EndOf lt S sp (leafValue w) := by
  cases h with
  | none h => subst h; exact absurd hl (by decide)
  | leaf k v l hv st only =>
    refine ⟨k, v, hv, st, fun k' hk hp => ?_⟩
    obtain rfl := only k' hk hp
    exact ⟨hp, hirr k'⟩
  | node _ _ _ _ _ r => rw [r.leaf] at hl; cases hl

theorem Extreme.endOf {lt : Key → Key → Prop} {S : T → Prop} {q sp : Key} {v : Word} (hq : q <+: sp) (h : Extreme lt S sp q v) : EndOf lt S sp v := by
  obtain ⟨k, v', hv, ho, hp, hm⟩ := h
  exact ⟨k, v', hv, ho, fun k' hk hp' => ⟨hp, hm k' hk (hq.trans hp')⟩⟩

/-- `MinKey`. -/
theorem safe_minKey (hE : E .fuel) (fuel : Nat) (sp : Key) (S : T → Prop) :
    Safe env a L E (fun S' r => ∀ v, r = some v → EndOf (· < ·) S' sp v) (minKeyP fuel sp) S := by
  unfold minKeyP
  refine Safe.bind (safe_partialSearch sp S) ?_
  rintro S1 ⟨raw, d⟩ hS1 ⟨h, -⟩
  simp only at h ⊢
  by_cases h0 : raw = 0
  · rw [if_pos h0]; intro v hv; cases hv
  rw [if_neg h0]
  by_cases hl : isLeaf raw = true
  · rw [if_pos hl]
    intro v hv
    cases hv
    exact h.endOf List.lt_irrefl hl
  rw [if_neg hl]
  cases h with
  | none h => exact absurd h h0
  | leaf _ _ l => exact absurd l hl
  | node q n pfx big ch r hq hsp =>
    have hB : sp <+: q ++ pfx := by
      rcases hsp with h | h
      · exact h
      · rw [← h]; exact List.prefix_append _ _
    exact (safe_minLoop hE fuel r hB).mono fun S2 r hS2 h v hv => (h v hv).endOf hq

/-- `MaxKey`. -/
theorem safe_maxKey (hE : E .fuel) (fuel : Nat) (sp : Key) (S : T → Prop) :
    Safe env a L E (fun S' r => ∀ v, r = some v → EndOf (· > ·) S' sp v) (maxKeyP fuel sp) S := by
  unfold maxKeyP
  refine Safe.bind (safe_partialSearch sp S) ?_
  rintro S1 ⟨raw, d⟩ hS1 ⟨h, -⟩
  simp only at h ⊢
  by_cases h0 : raw = 0
  · rw [if_pos h0]; intro v hv; cases hv
  rw [if_neg h0]
  by_cases hl : isLeaf raw = true
  · rw [if_pos hl]
    intro v hv
    cases hv
    exact h.endOf (lt := (· > ·)) List.lt_irrefl hl
  rw [if_neg hl]
  cases h with
  | none h => exact absurd h h0
  | leaf _ _ l => exact absurd l hl
  | node q n pfx big ch r hq hsp =>
    have hB : sp <+: q ++ pfx := by
      rcases hsp with h | h
      · exact h
      · rw [← h]; exact List.prefix_append _ _
    exact (safe_maxLoop hE fuel r hB).mono fun S2 r hS2 h v hv => (h v hv).endOf hq

end

end Radix
