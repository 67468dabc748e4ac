import Verif.Model.State
/-!
# Reading back a stored prefix
-/
namespace Radix

theorem byteOf_assemble (f : Nat → UInt8) {t : Nat} (ht : t < 8) : byteOf (assemble f) t = f t := by
  have h0 := (f 0).toNat_lt; have h1 := (f 1).toNat_lt; have h2 := (f 2).toNat_lt; have h3 := (f 3).toNat_lt
  have h4 := (f 4).toNat_lt; have h5 := (f 5).toNat_lt; have h6 := (f 6).toNat_lt; have h7 := (f 7).toNat_lt
  apply UInt8.toNat_inj.1
  unfold byteOf assemble
  rw [UInt8.toNat_ofNat', UInt64.toNat_ofNat']
  match t, ht with
  | 0, _ => omega
  | 1, _ => omega
  | 2, _ => omega
  | 3, _ => omega
  | 4, _ => omega
  | 5, _ => omega
  | 6, _ => omega
  | 7, _ => omega

theorem length_readBytes (m : Mem) (b n : Nat) : (readBytes m b n).length = n := by simp [readBytes]

theorem readBytes_congr {m m' : Mem} {b n : Nat} (h : ∀ x, b ≤ x → x < b + (n + 7) / 8 → m' x = m x) :
    readBytes m' b n = readBytes m b n := by
  unfold readBytes
  apply List.map_congr_left
  intro i hi
  have hi := List.mem_range.1 hi
  unfold byteAt
  rw [h _ (by omega) (by omega)]

theorem writeBytes_outside {m : Mem} {b : Nat} {bs : List UInt8} {x : Nat}
    (h : x < b ∨ b + (bs.length + 7) / 8 ≤ x) : writeBytes m b bs x = m x := by
  unfold writeBytes
  rw [if_neg]
  omega

theorem readBytes_writeBytes (m : Mem) (b : Nat) (bs : List UInt8) :
    readBytes (writeBytes m b bs) b bs.length = bs := by
  apply List.ext_getElem
  · simp [readBytes]
  intro i h1 h2
  simp only [readBytes, List.getElem_map, List.getElem_range]
  unfold byteAt writeBytes
  rw [if_pos (by omega), byteOf_assemble _ (by omega)]
  rw [show 8 * (b + i / 8 - b) + i % 8 = i by omega]
  simp [h2]

/-- The prefix of a node at `addr` is stored there (unsafe.go:21-27). -/
def PrefixMem (m : Mem) (addr : Nat) (pfx : List UInt8) : Prop :=
  if pfx.length ≥ 255 then
    m addr = UInt64.ofNat pfx.length ∧ readBytes m (addr + 1) pfx.length = pfx
  else readBytes m addr pfx.length = pfx

theorem PrefixMem_nil (m : Mem) (addr : Nat) : PrefixMem m addr [] := by
  simp [PrefixMem, readBytes]

theorem PrefixMem.congr {m m' : Mem} {addr : Nat} {pfx : List UInt8} (h : PrefixMem m addr pfx)
    (he : ∀ x, addr ≤ x → x < addr + prefixSlots pfx.length → m' x = m x) : PrefixMem m' addr pfx := by
  unfold PrefixMem prefixSlots at *
  split at h
  · rename_i hl
    rw [if_pos hl]
    rw [if_pos hl] at he
    refine ⟨by rw [he _ (by omega) (by omega)]; exact h.1, ?_⟩
    rw [readBytes_congr]; · exact h.2
    intro x h1 h2; exact he x (by omega) (by omega)
  · rename_i hl
    rw [if_neg hl]
    rw [if_neg hl] at he
    rw [readBytes_congr]; · exact h
    intro x h1 h2; exact he x (by omega) (by omega)

theorem storePrefix_ok {m : Mem} {dst : Slice} {pfx : List UInt8} (h : prefixSlots pfx.length ≤ dst.len)
    (hne : pfx ≠ []) :
    ∃ m', storePrefix m dst pfx = .ok m' ∧ PrefixMem m' dst.base pfx ∧
      ∀ x, (x < dst.base ∨ dst.base + prefixSlots pfx.length ≤ x) → m' x = m x := by
  have hpos : 0 < pfx.length := List.length_pos_iff.2 hne
  unfold storePrefix PrefixMem prefixSlots at *
  split at h
  · rename_i hl
    have h1 : 0 < dst.len := by omega
    have h2 : 1 ≤ dst.len := by omega
    have h3 : 0 < dst.len - 1 := by omega
    simp only [if_pos hl, Slice.set, Slice.drop, Slice.get, h1, h2, h3, if_true, bind, Except.bind, pure,
      Except.pure]
    refine ⟨_, rfl, ⟨?_, ?_⟩, ?_⟩
    · rw [writeBytes_outside (by omega)]; simp
    · rw [readBytes_writeBytes]
    · intro x hx
      rw [writeBytes_outside (by omega), upd_of_ne]
      omega
  · rename_i hl
    have h1 : 0 < dst.len := by omega
    simp only [if_neg hl, Slice.get, h1, if_true, bind, Except.bind, pure, Except.pure]
    refine ⟨_, rfl, readBytes_writeBytes _ _ _, ?_⟩
    intro x hx
    rw [writeBytes_outside (by omega)]

theorem appendPrefix_ok {m : Mem} {src : Slice} {pfx dst : List UInt8} (hp : PrefixMem m src.base pfx)
    (hlt : pfx.length < 2 ^ 64) (hlen : prefixSlots pfx.length ≤ src.len) :
    appendPrefix m dst src (min pfx.length 255) = .ok (dst ++ pfx, prefixSlots pfx.length) := by
  unfold appendPrefix PrefixMem prefixSlots at *
  by_cases h0 : pfx.length = 0
  · have : pfx = [] := List.length_eq_zero_iff.1 h0
    subst this
    simp
  by_cases hl : pfx.length ≥ 255
  · rw [if_pos hl] at hp
    rw [if_pos hl] at hlen
    have h1 : 0 < src.len := by omega
    have h2 : 1 ≤ src.len := by omega
    have h3 : 0 < src.len - 1 := by omega
    rw [if_neg (by omega), if_pos (by omega)]
    simp only [Slice.get, Slice.drop, h1, h2, h3, if_true, bind, Except.bind, pure, Except.pure, Nat.add_zero, hp.1]
    rw [UInt64.toNat_ofNat', Nat.mod_eq_of_lt hlt, hp.2]
    simp [hl]
    omega
  · rw [if_neg hl] at hp
    rw [if_neg hl] at hlen
    have h1 : 0 < src.len := by omega
    rw [if_neg (by omega), if_neg (by omega)]
    simp only [Slice.get, h1, if_true, bind, Except.bind, pure, Except.pure]
    rw [Nat.min_eq_left (by omega), hp, if_neg hl]
    rfl

theorem skipPrefix_ok {m : Mem} {data : Slice} {pfx : List UInt8} (hp : PrefixMem m data.base pfx)
    (hlt : pfx.length < 2 ^ 64) (hlen : prefixSlots pfx.length ≤ data.len) :
    skipPrefix m data (min pfx.length 255) =
      .ok (pfx.length, prefixSlots pfx.length,
        ⟨data.base + prefixSlots pfx.length, data.len - prefixSlots pfx.length⟩) := by
  unfold skipPrefix PrefixMem prefixSlots at *
  by_cases h0 : pfx.length = 0
  · simp [h0]
  by_cases hl : pfx.length ≥ 255
  · rw [if_pos hl] at hp
    rw [if_pos hl] at hlen
    have h1 : 0 < data.len := by omega
    rw [if_pos (by omega), if_pos (by omega)]
    simp only [Slice.get, Slice.drop, h1, if_true, bind, Except.bind, pure, Except.pure, Nat.add_zero, hp.1]
    rw [UInt64.toNat_ofNat', Nat.mod_eq_of_lt hlt]
    rw [show (pfx.length + 15) / 8 = (pfx.length + 7) / 8 + 1 by omega, if_pos (by omega), if_pos hl]
  · rw [if_neg hl] at hp
    rw [if_neg hl] at hlen
    rw [if_pos (by omega), if_neg (by omega), Nat.min_eq_left (by omega), if_neg hl]
    simp only [Slice.drop, bind, Except.bind, pure, Except.pure]
    rw [if_pos (by omega)]
    rfl

end Radix
