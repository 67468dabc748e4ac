import Verif.Prefix
import Verif.Model.SafePrefix
import Verif.Model.Search
/-!
# Properties C20, C21, C22, C38 (encodings) and C12 (termination of Lookup)
-/
set_option autoImplicit false
namespace Radix

/-! ## C20 -/

/-- C20: a leaf word built for value `v` (any 64 bits) decodes to `v mod 2^55`, is recognised as a leaf whatever the
byte, keeps its byte, and keeps its value when moved under another byte. -/
theorem C20_values_keep_low_55_bits (k k' : UInt8) (v : Word) :
    (leafValue (buildLeaf k v)).toNat = v.toNat % 2 ^ 55 ∧
    (v.toNat < 2 ^ 55 → leafValue (buildLeaf k v) = v) ∧
    isLeaf (buildLeaf k v) = true ∧ buildLeaf k v ≠ 0 ∧
    keyByte (buildLeaf k v) = k ∧
    keyByte (updateLeafKey (buildLeaf k v) k') = k' ∧
    leafValue (updateLeafKey (buildLeaf k v) k') = leafValue (buildLeaf k v) ∧
    isLeaf (updateLeafKey (buildLeaf k v) k') = true := by
  refine ⟨?_, ?_, isLeaf_buildLeaf k v, buildLeaf_ne_zero k v, keyByte_buildLeaf k v, ?_, ?_, ?_⟩
  · rw [leafValue_buildLeaf, toNat_trunc55]
  · intro h; rw [leafValue_buildLeaf, trunc55_of_lt h]
  · simp
  · simp
  · simp

/-- A value using bit 55 loses it; one using bit 54 does not. -/
example : leafValue (buildLeaf 7 0x0080000000000001) = 1 ∧
    leafValue (buildLeaf 7 0x0040000000000001) = 0x0040000000000001 := by decide

/-! ## C21 -/

/-- C21: decoding a child reference gives back what it was built from. -/
theorem C21_child_references_round_trip (k : UInt8) (addr c pl : Nat) (ha : addr < 2 ^ 39) (h1 : 1 ≤ c) (h2 : c ≤ 256) :
    keyByte (buildNode k addr c pl) = k ∧ nodeAddr (buildNode k addr c pl) = addr ∧
    nodeCount (buildNode k addr c pl) = c ∧ nodePlen (buildNode k addr c pl) = min pl 255 ∧
    isLeaf (buildNode k addr c pl) = false ∧ (addr ≠ 0 → buildNode k addr c pl ≠ 0) :=
  ⟨keyByte_buildNode ha h2, nodeAddr_buildNode ha h2, nodeCount_buildNode ha h2 h1, nodePlen_buildNode ha h2,
    isLeaf_buildNode ha h2, fun h => buildNode_ne_zero ha h2 (by omega)⟩

/-- Largest fields at once. -/
example : nodeAddr (buildNode 255 (2 ^ 39 - 1) 256 1000) = 2 ^ 39 - 1 ∧
    nodeCount (buildNode 255 (2 ^ 39 - 1) 256 1000) = 256 ∧
    nodePlen (buildNode 255 (2 ^ 39 - 1) 256 1000) = 255 := by decide

/-- Two different references (within the field ranges) have different words. -/
theorem C21_child_references_injective (k k' : UInt8) (addr addr' c c' pl pl' : Nat)
    (ha : addr < 2 ^ 39) (ha' : addr' < 2 ^ 39) (h1 : 1 ≤ c) (h1' : 1 ≤ c') (h2 : c ≤ 256) (h2' : c' ≤ 256)
    (h : buildNode k addr c pl = buildNode k' addr' c' pl') :
    k = k' ∧ addr = addr' ∧ c = c' ∧ min pl 255 = min pl' 255 := by
  refine ⟨?_, ?_, ?_, ?_⟩
  · have := congrArg keyByte h
    rwa [keyByte_buildNode ha h2, keyByte_buildNode ha' h2'] at this
  · have := congrArg nodeAddr h
    rwa [nodeAddr_buildNode ha h2, nodeAddr_buildNode ha' h2'] at this
  · have := congrArg nodeCount h
    rwa [nodeCount_buildNode ha h2 h1, nodeCount_buildNode ha' h2' h1'] at this
  · have := congrArg nodePlen h
    rwa [nodePlen_buildNode ha h2, nodePlen_buildNode ha' h2'] at this

example : (1 : Nat) < 2 ^ 39 ∧ 1 ≤ 2 ∧ 2 ≤ 256 ∧ buildNode 1 1 2 0 = buildNode 1 1 2 0 := by decide

/-! ## C22 -/

/-- C22: storing a prefix in a slice with at least the reserved number of slots succeeds, changes nothing outside the
reserved slots, and reading it back (with the length kept in a child reference built for it) gives the same bytes and
the reserved number of slots; so does skipping it. -/
theorem C22_prefix_round_trip (m : Mem) (dst : Slice) (pfx acc : List UInt8) (hne : pfx ≠ [])
    (hlen : pfx.length < 2 ^ 63) (hfit : prefixSlots pfx.length ≤ dst.len) (k : UInt8) (addr c : Nat) (ha : addr < 2 ^ 39) (hc : c ≤ 256) :
    ∃ m', storePrefix m dst pfx = .ok m' ∧
      (∀ x, (x < dst.base ∨ dst.base + prefixSlots pfx.length ≤ x) → m' x = m x) ∧
      appendPrefix m' acc dst (nodePlen (buildNode k addr c pfx.length)) = .ok (acc ++ pfx, prefixSlots pfx.length) ∧
      skipPrefix m' dst (nodePlen (buildNode k addr c pfx.length)) = .ok (pfx.length, prefixSlots pfx.length,
        ⟨dst.base + prefixSlots pfx.length, dst.len - prefixSlots pfx.length⟩) := by
  obtain ⟨m', h1, h2, h3⟩ := storePrefix_ok (m := m) hfit hne
  rw [nodePlen_buildNode ha hc]
  exact ⟨m', h1, h3, appendPrefix_ok h2 (by omega) hfit, skipPrefix_ok h2 (by omega) hfit⟩

/-- The hypotheses hold at the boundary length 255, where a length slot is added. -/
example : ∃ pfx : List UInt8, pfx.length = 255 ∧ pfx ≠ [] ∧ pfx.length < 2 ^ 63 ∧
    prefixSlots pfx.length ≤ (⟨5, 33⟩ : Slice).len := by
  have h : (List.replicate 255 (7 : UInt8)).length = 255 := List.length_replicate
  refine ⟨_, h, ?_, by omega, ?_⟩
  · intro e; rw [e] at h; simp at h
  · rw [h]; decide

/-- The reserved number of slots is exactly what the bytes need (plus the length slot from 255 bytes on). -/
theorem C22_prefix_slots (n : Nat) :
    (n < 255 → n ≤ 8 * prefixSlots n ∧ 8 * prefixSlots n < n + 8) ∧
    (255 ≤ n → n + 8 ≤ 8 * prefixSlots n ∧ 8 * prefixSlots n < n + 16) := by
  unfold prefixSlots
  constructor <;> intro h <;> split <;> omega

/-! ## C38 -/

theorem foldl_be_lt (bs : List UInt8) (a n : Nat) (ha : a < 256 ^ n) :
    bs.foldl (fun a b => a * 256 + b.toNat) a < 256 ^ (n + bs.length) := by
  induction bs generalizing a n with
  | nil => simpa using ha
  | cons b bs ih =>
    have hb := b.toNat_lt
    have := ih (a * 256 + b.toNat) (n + 1) (by rw [Nat.pow_succ]; omega)
    simpa [Nat.add_assoc, Nat.add_comm 1] using this

theorem foldl_be_digit (bs : List UInt8) : ∀ (a i : Nat) (hi : i < bs.length),
    bs.foldl (fun a b => a * 256 + b.toNat) a / 256 ^ (bs.length - 1 - i) % 256 = bs[i].toNat := by
  induction bs with
  | nil => intro a i hi; simp at hi
  | cons b bs ih =>
    intro a i hi
    simp only [List.foldl_cons, List.length_cons]
    cases i with
    | succ i =>
      have := ih (a * 256 + b.toNat) i (by simpa using hi)
      rw [show bs.length + 1 - 1 - (i + 1) = bs.length - 1 - i by omega]
      simpa using this
    | zero =>
      have hb := b.toNat_lt
      have key : ∀ (bs : List UInt8) (a : Nat),
          bs.foldl (fun a b => a * 256 + b.toNat) a / 256 ^ bs.length = a := by
        intro bs
        induction bs with
        | nil => intro a; simp
        | cons c bs ih2 =>
          intro a
          have hc := c.toNat_lt
          simp only [List.foldl_cons, List.length_cons, Nat.pow_succ]
          rw [← Nat.div_div_eq_div_mul, ih2]
          omega
      simp only [Nat.add_sub_cancel, Nat.sub_zero, List.getElem_cons_zero]
      rw [key]
      omega

theorem take_unpackWord_packWord (bs : List UInt8) (h : bs.length ≤ 8) :
    (unpackWord (packWord bs)).take bs.length = bs := by
  apply List.ext_getElem
  · simp [unpackWord]; omega
  intro i h1 h2
  simp only [unpackWord, packWord, List.getElem_take, List.getElem_map, List.getElem_range]
  apply UInt8.toNat_inj.1
  have hlt := foldl_be_lt bs 0 0 (by simp)
  have hd := foldl_be_digit bs 0 i h2
  generalize hF : bs.foldl (fun a b => a * 256 + b.toNat) 0 = F at *
  simp only [Nat.zero_add] at hlt
  have hb : F * 256 ^ (8 - bs.length) < 2 ^ 64 := by
    have : F * 256 ^ (8 - bs.length) < 256 ^ bs.length * 256 ^ (8 - bs.length) :=
      Nat.mul_lt_mul_of_pos_right hlt (Nat.pow_pos (by decide))
    rw [← Nat.pow_add, Nat.add_sub_cancel' h] at this
    exact this
  rw [UInt8.toNat_ofNat', UInt64.toNat_ofNat', Nat.mod_eq_of_lt hb]
  have e : 256 ^ (7 - i) = 256 ^ (8 - bs.length) * 256 ^ (bs.length - 1 - i) := by
    rw [← Nat.pow_add]; congr 1; omega
  rw [e, ← Nat.div_div_eq_div_mul, Nat.mul_div_cancel _ (Nat.pow_pos (by decide))]
  exact hd

theorem unpackWord_packWord (bs : List UInt8) (h : bs.length = 8) : unpackWord (packWord bs) = bs := by
  have := take_unpackWord_packWord bs (by omega)
  rw [h, List.take_of_length_le (by simp [unpackWord])] at this
  exact this

theorem packWords_ok : ∀ (n : Nat) (bs : List UInt8), n = (bs.length + 7) / 8 →
    ∃ ws, packWords n bs = .ok ws ∧ ws.length = n ∧ (ws.flatMap unpackWord).take bs.length = bs := by
  intro n
  induction n with
  | zero =>
    intro bs h
    have : bs = [] := List.length_eq_zero_iff.1 (by omega)
    subst this
    exact ⟨[], rfl, rfl, rfl⟩
  | succ n ih =>
    intro bs h
    have hne : bs ≠ [] := by rintro rfl; simp at h
    obtain ⟨ws, h1, h2, h3⟩ := ih (bs.drop 8) (by rw [List.length_drop]; omega)
    refine ⟨packWord (bs.take 8) :: ws, ?_, by simp [h2], ?_⟩
    · simp [packWords, hne, h1, bind, Except.bind, pure, Except.pure]
    · rw [List.flatMap_cons]
      by_cases hl : bs.length ≤ 8
      · rw [List.take_of_length_le (l := bs) hl, List.take_append_of_le_length (by simp [unpackWord]; omega)]
        exact take_unpackWord_packWord bs hl
      · have h8 : (bs.take 8).length = 8 := by rw [List.length_take]; omega
        rw [unpackWord_packWord _ h8, List.take_append, h8, List.take_of_length_le (by omega),
          ← List.length_drop, h3, List.take_append_drop]

/-- C38: for every nonempty prefix, storing it with `storePrefixSafe` in exactly the reserved slots succeeds and
`loadPrefixSafe` gives back the same bytes and number of slots. -/
theorem C38_safe_codec_round_trip (pfx : List UInt8) (hne : pfx ≠ []) (hlen : pfx.length < 2 ^ 63) :
    ∃ ws, storePrefixSafe (prefixSlots pfx.length) pfx = .ok ws ∧ ws.length = prefixSlots pfx.length ∧
      loadPrefixSafe ws (min pfx.length 255) = .ok (pfx, prefixSlots pfx.length) := by
  have hpos : 0 < pfx.length := List.length_pos_iff.2 hne
  unfold storePrefixSafe prefixSlots
  by_cases h : pfx.length ≥ 255
  · simp only [if_pos h]
    obtain ⟨ws, h1, h2, h3⟩ := packWords_ok ((pfx.length + 7) / 8) pfx rfl
    refine ⟨UInt64.ofNat pfx.length :: ws, ?_, by simp [h2], ?_⟩
    · rw [if_neg (by omega), Nat.add_sub_cancel, h1]; rfl
    · unfold loadPrefixSafe
      have e : (UInt64.ofNat pfx.length).toNat = pfx.length := by
        rw [UInt64.toNat_ofNat']; omega
      rw [if_pos (by omega)]
      simp only [e]
      rw [if_pos (by omega), ← h2, List.take_length, h3]
  · simp only [if_neg h, Nat.add_zero]
    obtain ⟨ws, h1, h2, h3⟩ := packWords_ok ((pfx.length + 7) / 8) pfx rfl
    refine ⟨ws, h1, h2, ?_⟩
    unfold loadPrefixSafe
    rw [if_neg (by omega)]
    simp only
    rw [show min pfx.length 255 = pfx.length by omega, if_pos (by omega), ← h2, List.take_length, h3]

example : ([1, 2, 3] : List UInt8) ≠ [] ∧ storePrefixSafe (prefixSlots 3) [1, 2, 3] = .ok [0x0102030000000000] := by
  decide

/-- The word "exactly" in C38 is needed: with a spare slot the safe version panics (the version in use,
`storePrefix`, does not, see C22). -/
theorem C38_safe_codec_panics_on_spare_slot (pfx : List UInt8) (hlen : pfx.length < 255) :
    storePrefixSafe (prefixSlots pfx.length + 1) pfx = .error .index := by
  unfold storePrefixSafe prefixSlots
  rw [if_neg (by omega)]
  simp only [if_neg (show ¬ pfx.length ≥ 255 by omega), Nat.add_zero]
  have : ∀ (n : Nat) (bs : List UInt8), n = (bs.length + 7) / 8 → packWords (n + 1) bs = .error .index := by
    intro n
    induction n with
    | zero =>
      intro bs h
      have : bs = [] := List.length_eq_zero_iff.1 (by omega)
      subst this
      rfl
    | succ n ih =>
      intro bs h
      have hne : bs ≠ [] := by rintro rfl; simp at h
      have := ih (bs.drop 8) (by rw [List.length_drop]; omega)
      rw [packWords, if_neg hne, this]
      rfl
  exact this _ pfx rfl

example : ([1, 2, 3] : List UInt8).length < 255 := by decide

/-! ## C12 -/

theorem searchLoop_fuel (st : St) (key : Key) : ∀ (fuel : Nat) (raw : Word) (depth : Nat),
    key.length < fuel + depth → 0 < fuel → searchLoop st key fuel raw depth ≠ .error .fuel ∧
      ∀ extra, searchLoop st key (fuel + extra) raw depth = searchLoop st key fuel raw depth := by
  intro fuel
  induction fuel with
  | zero => intro raw depth _ h; omega
  | succ fuel ih =>
    intro raw depth h _
    have hnd : ∀ n, (∃ s, st.nodeData n = .ok s) ∨ st.nodeData n = .error .nilBlock := by
      intro n; unfold St.nodeData; split
      · exact .inl ⟨_, rfl⟩
      · exact .inr rfl
    have hget : ∀ s i, (∃ w, Slice.get st.mem s i = .ok w) ∨ Slice.get st.mem s i = .error .index := by
      intro s i; unfold Slice.get; split
      · exact .inl ⟨_, rfl⟩
      · exact .inr rfl
    have hdrop : ∀ (s : Slice) i, (∃ w, Slice.drop s i = .ok w) ∨ Slice.drop s i = .error .index := by
      intro s i; unfold Slice.drop; split
      · exact .inl ⟨_, rfl⟩
      · exact .inr rfl
    have hwords : ∀ s i, (∃ w, Slice.words st.mem s i = .ok w) ∨ Slice.words st.mem s i = .error .index := by
      intro s i; unfold Slice.words; split
      · exact .inl ⟨_, rfl⟩
      · exact .inr rfl
    have hskip : ∀ s i, (∃ w, skipPrefix st.mem s i = .ok w) ∨ skipPrefix st.mem s i = .error .index := by
      intro s i
      unfold skipPrefix
      split
      · split
        · rcases hget s 0 with ⟨w, e⟩ | e <;> rw [e]
          · simp only [bind, Except.bind]
            rcases hdrop s ((w.toNat + 15) / 8) with ⟨w', e⟩ | e <;> rw [e]
            · exact .inl ⟨_, rfl⟩
            · exact .inr rfl
          · exact .inr rfl
        · rcases hdrop s ((i + 7) / 8) with ⟨w', e⟩ | e <;> rw [e]
          · exact .inl ⟨_, rfl⟩
          · exact .inr rfl
      · exact .inl ⟨_, rfl⟩
    have hkey : ∀ i, (∃ w, keyAt key i = .ok w) ∨ keyAt key i = .error .index := by
      intro i; unfold keyAt; split
      · exact .inl ⟨_, rfl⟩
      · exact .inr rfl
    have hrec : ∀ w d, d < key.length → depth ≤ d →
        (searchLoop st key fuel w (d + 1) ≠ .error .fuel ∧
        ∀ extra, searchLoop st key (fuel + extra) w (d + 1) = searchLoop st key fuel w (d + 1)) := by
      intro w d h1 h2
      exact ih w (d + 1) (by omega) (by omega)
    have hcomm : ∀ extra, fuel + 1 + extra = (fuel + extra) + 1 := by omega
    rcases hnd (nodeAddr raw) with ⟨s, e⟩ | e
    rotate_left
    · refine ⟨by simp [searchLoop, e, bind, Except.bind], fun extra => ?_⟩
      rw [hcomm]; simp [searchLoop, e, bind, Except.bind]
    rcases hskip s (nodePlen raw) with ⟨⟨pl, sl, d⟩, e2⟩ | e2
    rotate_left
    · refine ⟨by simp [searchLoop, e, e2, bind, Except.bind], fun extra => ?_⟩
      rw [hcomm]; simp [searchLoop, e, e2, bind, Except.bind]
    by_cases hdep : depth + pl ≥ key.length
    · refine ⟨by simp [searchLoop, e, e2, hdep, bind, Except.bind, pure, Except.pure], fun extra => ?_⟩
      rw [hcomm]; simp [searchLoop, e, e2, hdep, bind, Except.bind]
    rcases hkey (depth + pl) with ⟨k, e3⟩ | e3
    rotate_left
    · refine ⟨by simp [searchLoop, e, e2, e3, hdep, bind, Except.bind], fun extra => ?_⟩
      rw [hcomm]; simp [searchLoop, e, e2, e3, hdep, bind, Except.bind]
    by_cases hbig : nodeCount raw ≥ fullAllocFrom
    · rcases hget d k.toNat with ⟨w, e4⟩ | e4
      rotate_left
      · refine ⟨by simp [searchLoop, e, e2, e3, e4, hdep, hbig, bind, Except.bind], fun extra => ?_⟩
        rw [hcomm]; simp [searchLoop, e, e2, e3, e4, hdep, hbig, bind, Except.bind]
      have := hrec w (depth + pl) (by omega) (by omega)
      constructor
      · simp only [searchLoop, e, e2, e3, e4, hdep, hbig, bind, Except.bind, if_false, if_true]
        split
        · simp [pure, Except.pure]
        · split
          · simp [pure, Except.pure]
          · exact this.1
      · intro extra
        rw [hcomm]
        simp only [searchLoop, e, e2, e3, e4, hdep, hbig, bind, Except.bind, if_false, if_true, this.2]
    · rcases hwords d (nodeCount raw) with ⟨ws, e4⟩ | e4
      rotate_left
      · refine ⟨by simp [searchLoop, e, e2, e3, e4, hdep, hbig, bind, Except.bind], fun extra => ?_⟩
        rw [hcomm]; simp [searchLoop, e, e2, e3, e4, hdep, hbig, bind, Except.bind]
      have := hrec (scan k ws).2 (depth + pl) (by omega) (by omega)
      constructor
      · simp only [searchLoop, e, e2, e3, e4, hdep, hbig, bind, Except.bind, if_false]
        split
        · split
          · simp [pure, Except.pure]
          · exact this.1
        · simp [pure, Except.pure]
      · intro extra
        rw [hcomm]
        simp only [searchLoop, e, e2, e3, e4, hdep, hbig, bind, Except.bind, if_false, this.2]

/-- C12: the search loop, run for at most `len(key)+1` nodes, never needs another round, on every state (whatever the
memory contents) and for every key, start word and allowance of further rounds: it has ended by then. -/
theorem C12_lookup_terminates (st : St) (key : Key) (raw : Word) :
    search st key ≠ .error .fuel ∧ searchLoop st key (key.length + 1) raw 0 ≠ .error .fuel ∧
    ∀ extra, searchLoop st key (key.length + 1 + extra) raw 0 = searchLoop st key (key.length + 1) raw 0 := by
  have h := searchLoop_fuel st key (key.length + 1) raw 0 (by omega) (by omega)
  refine ⟨?_, h⟩
  unfold search
  split
  · unfold keyAt
    cases key with
    | nil => simp [bind, Except.bind]
    | cons k ks =>
      simp only [List.getElem?_cons_zero, bind, Except.bind]
      split <;> simp [pure, Except.pure]
  · exact (searchLoop_fuel st key (key.length + 1) st.root 0 (by omega) (by omega)).1

/-- A cyclic memory (a node that is its own child under byte 1) does not make Lookup loop. -/
example : searchLoop { St.new 1 with baNext := 1, mem := fun _ => buildNode 1 1 2 0 } [1, 1, 1]
    4 (buildNode 1 1 2 0) 0 = .ok none := by decide

end Radix
