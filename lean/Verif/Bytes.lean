import Verif.Model.State
/-!
# Sets of bytes: sorted listing, rank, and the scan of a sorted child list
-/
namespace Radix

/-- All bytes in increasing order. -/
def allBytes : List UInt8 := (List.range 256).map UInt8.ofNat

theorem mem_allBytes (b : UInt8) : b ∈ allBytes := by
  refine List.mem_map.2 ⟨b.toNat, List.mem_range.2 b.toNat_lt, ?_⟩
  simp

theorem allBytes_sorted : allBytes.Pairwise (· < ·) := by
  unfold allBytes
  rw [List.pairwise_map]
  refine List.Pairwise.imp_of_mem ?_ (List.pairwise_lt_range (n := 256))
  intro a b ha hb h
  simp only [List.mem_range] at ha hb
  rw [UInt8.lt_iff_toNat_lt]
  simp
  omega

/-- The bytes in a set, in increasing order. -/
def kidsOf (f : UInt8 → Bool) : List UInt8 := allBytes.filter f
/-- Number of bytes in a set. -/
def cntOf (f : UInt8 → Bool) : Nat := (kidsOf f).length
/-- Number of bytes of a set below a given byte. -/
def rankOf (f : UInt8 → Bool) (c : UInt8) : Nat := ((kidsOf f).filter (fun b => decide (b < c))).length

theorem mem_kidsOf {f : UInt8 → Bool} {c : UInt8} : c ∈ kidsOf f ↔ f c = true := by
  simp [kidsOf, mem_allBytes]

theorem kidsOf_sorted (f : UInt8 → Bool) : (kidsOf f).Pairwise (· < ·) := allBytes_sorted.filter f

theorem kidsOf_nodup (f : UInt8 → Bool) : (kidsOf f).Nodup :=
  (kidsOf_sorted f).imp fun h => UInt8.ne_of_lt h

/-- Splitting the bytes at a given byte. -/
theorem allBytes_split (k : UInt8) : ∃ l r, allBytes = l ++ k :: r ∧ (∀ b ∈ l, b < k) ∧ (∀ b ∈ r, k < b) := by
  obtain ⟨l, r, h⟩ := List.append_of_mem (mem_allBytes k)
  refine ⟨l, r, h, ?_, ?_⟩
  · have := allBytes_sorted
    rw [h, List.pairwise_append] at this
    intro b hb
    exact this.2.2 b hb k (by simp)
  · have := allBytes_sorted
    rw [h, List.pairwise_append, List.pairwise_cons] at this
    intro b hb
    exact this.2.1.1 b hb

/-- Splitting a set at a byte: the ones below, maybe the byte itself, the ones above. -/
theorem kidsOf_split (f : UInt8 → Bool) (k : UInt8) :
    ∃ l r, kidsOf f = l ++ (if f k then [k] else []) ++ r ∧ (∀ b ∈ l, b < k) ∧ (∀ b ∈ r, k < b) ∧
      l.length = rankOf f k ∧ (∀ g : UInt8 → Bool, (∀ b, b ≠ k → g b = f b) →
        kidsOf g = l ++ (if g k then [k] else []) ++ r) := by
  obtain ⟨l, r, h, hl, hr⟩ := allBytes_split k
  have key : ∀ g : UInt8 → Bool, (∀ b, b ≠ k → g b = f b) →
      kidsOf g = l.filter f ++ (if g k then [k] else []) ++ r.filter f := by
    intro g hg
    unfold kidsOf
    rw [h, List.filter_append, List.filter_cons]
    have h1 : l.filter g = l.filter f := by
      apply List.filter_congr
      intro b hb
      exact hg b (UInt8.ne_of_lt (hl b hb))
    have h2 : r.filter g = r.filter f := by
      apply List.filter_congr
      intro b hb
      exact hg b (fun e => UInt8.ne_of_lt (hr b hb) e.symm)
    rw [h1, h2]
    cases g k <;> simp
  have hk := key f (fun _ _ => rfl)
  refine ⟨l.filter f, r.filter f, hk, ?_, ?_, ?_, key⟩
  · intro b hb; exact hl b (List.mem_filter.1 hb).1
  · intro b hb; exact hr b (List.mem_filter.1 hb).1
  · unfold rankOf
    rw [hk, List.filter_append, List.filter_append]
    have h1 : (l.filter f).filter (fun b => decide (b < k)) = l.filter f := by
      rw [List.filter_eq_self]
      intro b hb
      simpa using hl b (List.mem_filter.1 hb).1
    have h2 : (r.filter f).filter (fun b => decide (b < k)) = [] := by
      rw [List.filter_eq_nil_iff]
      intro b hb
      have := hr b (List.mem_filter.1 hb).1
      simp only [decide_eq_true_eq]
      exact UInt8.lt_asymm this
    have h3 : (if f k then [k] else []).filter (fun b => decide (b < k)) = [] := by
      cases f k <;> simp
    rw [h1, h2, h3]
    simp

theorem rankOf_congr {f g : UInt8 → Bool} (h : ∀ b, f b = g b) (c : UInt8) : rankOf f c = rankOf g c := by
  have : f = g := funext h
  rw [this]

theorem kidsOf_getElem_rank {f : UInt8 → Bool} {c : UInt8} (h : f c = true) :
    (kidsOf f)[rankOf f c]? = some c := by
  obtain ⟨l, r, hk, _, _, hlen, _⟩ := kidsOf_split f c
  rw [hk, if_pos h, ← hlen]
  simp

theorem rankOf_lt {f : UInt8 → Bool} {c : UInt8} (h : f c = true) : rankOf f c < cntOf f := by
  have := kidsOf_getElem_rank h
  unfold cntOf
  exact (List.getElem?_eq_some_iff.1 this).1

theorem rankOf_le (f : UInt8 → Bool) (c : UInt8) : rankOf f c ≤ cntOf f := by
  unfold rankOf cntOf
  exact List.length_filter_le _ _

theorem rankOf_kidsOf {f : UInt8 → Bool} {i : Nat} (h : i < (kidsOf f).length) :
    rankOf f (kidsOf f)[i] = i := by
  have hm : f (kidsOf f)[i] = true := mem_kidsOf.1 (List.getElem_mem h)
  have := kidsOf_getElem_rank hm
  obtain ⟨h', e⟩ := List.getElem?_eq_some_iff.1 this
  exact (List.getElem_inj (kidsOf_nodup f)).1 e

theorem rankOf_inj {f : UInt8 → Bool} {c d : UInt8} (hc : f c = true) (hd : f d = true)
    (h : rankOf f c = rankOf f d) : c = d := by
  have h1 := kidsOf_getElem_rank hc
  have h2 := kidsOf_getElem_rank hd
  rw [h, h2] at h1
  exact (Option.some.inj h1).symm

theorem cntOf_pos {f : UInt8 → Bool} {c : UInt8} (h : f c = true) : 0 < cntOf f :=
  Nat.lt_of_le_of_lt (Nat.zero_le _) (rankOf_lt h)

theorem cntOf_le (f : UInt8 → Bool) : cntOf f ≤ 256 := by
  unfold cntOf kidsOf
  refine Nat.le_trans (List.length_filter_le _ _) ?_
  simp [allBytes]

/-- Adding a byte inserts it at its rank. -/
theorem kidsOf_insert {f g : UInt8 → Bool} {k : UInt8} (hf : f k = false) (hg : g k = true)
    (h : ∀ b, b ≠ k → g b = f b) :
    kidsOf g = (kidsOf f).take (rankOf f k) ++ k :: (kidsOf f).drop (rankOf f k) := by
  obtain ⟨l, r, hk, _, _, hlen, hgen⟩ := kidsOf_split f k
  rw [hgen g h, hk, ← hlen, hf, hg]
  simp

/-- Removing a byte. -/
theorem kidsOf_erase {f g : UInt8 → Bool} {k : UInt8} (hf : f k = true) (hg : g k = false)
    (h : ∀ b, b ≠ k → g b = f b) :
    kidsOf g = (kidsOf f).take (rankOf f k) ++ (kidsOf f).drop (rankOf f k + 1) := by
  obtain ⟨l, r, hk, _, _, hlen, hgen⟩ := kidsOf_split f k
  rw [hgen g h, hk, ← hlen, hf, hg]
  simp

theorem cntOf_insert {f g : UInt8 → Bool} {k : UInt8} (hf : f k = false) (hg : g k = true)
    (h : ∀ b, b ≠ k → g b = f b) : cntOf g = cntOf f + 1 := by
  have hr := rankOf_le f k
  unfold cntOf at *
  rw [kidsOf_insert hf hg h]
  simp
  omega

theorem cntOf_erase {f g : UInt8 → Bool} {k : UInt8} (hf : f k = true) (hg : g k = false)
    (h : ∀ b, b ≠ k → g b = f b) : cntOf g + 1 = cntOf f := by
  have hr := rankOf_lt hf
  unfold cntOf at *
  rw [kidsOf_erase hf hg h]
  simp
  omega

/-! ## The scan -/

theorem scan_cons_ge {k : UInt8} {w : Word} {ws : List Word} (h : keyByte w ≥ k) :
    scan k (w :: ws) = (0, w) := by
  cases ws <;> simp [scan, h]

theorem scan_cons_lt {k : UInt8} {w : Word} {ws : List Word} (h : ¬ keyByte w ≥ k) (hne : ws ≠ []) :
    scan k (w :: ws) = ((scan k ws).1 + 1, (scan k ws).2) := by
  cases ws with
  | nil => exact absurd rfl hne
  | cons w' ws => simp [scan, h]

theorem scan_append_lt {k : UInt8} {l r : List Word} (hl : ∀ w ∈ l, ¬ keyByte w ≥ k) (hr : r ≠ []) :
    scan k (l ++ r) = (l.length + (scan k r).1, (scan k r).2) := by
  induction l with
  | nil => simp
  | cons w l ih =>
    rw [List.cons_append, scan_cons_lt (hl w (by simp)) (by simp [hr]),
      ih (fun w hw => hl w (by simp [hw]))]
    simp only [List.length_cons, Prod.mk.injEq, and_true]
    omega

theorem scan_all_lt {k : UInt8} {l : List Word} (hl : ∀ w ∈ l, ¬ keyByte w ≥ k) (hne : l ≠ []) :
    (scan k l).1 = l.length ∧ (scan k l).2 ∈ l := by
  induction l with
  | nil => exact absurd rfl hne
  | cons w l ih =>
    cases l with
    | nil => simp [scan, hl w (by simp)]
    | cons w' l =>
      rw [scan_cons_lt (hl w (by simp)) (by simp)]
      obtain ⟨h1, h2⟩ := ih (fun w hw => hl w (List.mem_cons_of_mem _ hw)) (by simp)
      refine ⟨by simp [h1], List.mem_cons_of_mem _ h2⟩

/-- Scanning the sorted child words for a byte that has a child. -/
theorem scan_kids_some {f : UInt8 → Bool} {w : UInt8 → Word} {k : UInt8}
    (hw : ∀ b, f b = true → keyByte (w b) = b) (hk : f k = true) :
    scan k ((kidsOf f).map w) = (rankOf f k, w k) := by
  obtain ⟨l, r, hs, hl, hr, hlen, _⟩ := kidsOf_split f k
  have hf : ∀ b ∈ l, f b = true := fun b hb => mem_kidsOf.1 (by rw [hs]; simp [hb])
  rw [hs, if_pos hk, List.append_assoc, List.map_append, scan_append_lt, List.singleton_append, List.map_cons,
    scan_cons_ge]
  · simp [hlen]
  · rw [hw k hk]; exact UInt8.le_refl _
  · intro x hx
    obtain ⟨b, hb, rfl⟩ := List.mem_map.1 hx
    rw [hw b (hf b hb)]
    exact fun h => absurd (UInt8.lt_of_le_of_lt h (hl b hb)) (UInt8.lt_irrefl _)
  · simp

/-- Scanning the sorted child words for a byte without a child. -/
theorem scan_kids_none {f : UInt8 → Bool} {w : UInt8 → Word} {k : UInt8}
    (hw : ∀ b, f b = true → keyByte (w b) = b) (hk : f k = false) (hpos : 0 < cntOf f) :
    (scan k ((kidsOf f).map w)).1 = rankOf f k ∧ keyByte (scan k ((kidsOf f).map w)).2 ≠ k := by
  obtain ⟨l, r, hs, hl, hr, hlen, _⟩ := kidsOf_split f k
  have hfl : ∀ b ∈ l, f b = true := fun b hb => mem_kidsOf.1 (by rw [hs]; simp [hb])
  have hfr : ∀ b ∈ r, f b = true := fun b hb => mem_kidsOf.1 (by rw [hs]; simp [hb])
  have hs' : kidsOf f = l ++ r := by rw [hs, hk]; simp
  have hlt : ∀ x ∈ l.map w, ¬ keyByte x ≥ k := by
    intro x hx
    obtain ⟨b, hb, rfl⟩ := List.mem_map.1 hx
    rw [hw b (hfl b hb)]
    exact fun h => absurd (UInt8.lt_of_le_of_lt h (hl b hb)) (UInt8.lt_irrefl _)
  rw [hs', List.map_append]
  cases r with
  | nil =>
    have hne : l.map w ≠ [] := by
      intro e
      have : l = [] := by simpa using e
      rw [cntOf, hs', this] at hpos
      simp at hpos
    have := scan_all_lt hlt hne
    simp only [List.map_nil, List.append_nil]
    refine ⟨by rw [this.1, ← hlen]; simp, ?_⟩
    intro e
    have hx := hlt _ this.2
    rw [e] at hx
    exact hx (UInt8.le_refl _)
  | cons c r =>
    have hc : k < c := hr c (by simp)
    have hb : keyByte (w c) = c := hw c (hfr c (by simp))
    rw [scan_append_lt hlt (by simp), List.map_cons, scan_cons_ge]
    · refine ⟨by simp [hlen], ?_⟩
      rw [hb]
      exact fun e => UInt8.ne_of_lt hc e.symm
    · rw [hb]; exact UInt8.le_of_lt hc

end Radix
