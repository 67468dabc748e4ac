/-!
# 64-bit child references (`utils.go`)

The low-level encoding of leaves and nodes as 64-bit words, bit for bit.
-/
namespace Radix

/-- A slot of the tree's memory (`uint64`). -/
abbrev Word := UInt64

/-- A key (`[]byte`). -/
abbrev Key := List UInt8

/-- utils.go:19-25 `buildNode`.  `addr` is the global slot offset of the node data (`value` in the code),
`children` the number of children (`children-1` is stored), `prefixLen` saturates at 255.
Simplification: Go `int` arguments are natural numbers here; `children ≥ 1` in every call. -/
def buildNode (key : UInt8) (addr : Nat) (children prefixLen : Nat) : Word :=
  let pl := if prefixLen > 255 then 255 else prefixLen
  (UInt64.ofNat (children - 1) <<< 56) ||| (UInt64.ofNat pl <<< 48) ||| (UInt64.ofNat addr <<< 9)
    ||| key.toUInt64

/-- `byte(w)` in the code: the low byte of a word (utils.go:29 and everywhere). -/
def keyByte (w : Word) : UInt8 := w.toUInt8

/-- utils.go:28-34 `explodeNode`/`getNodeValue`: the 39-bit address field. -/
def nodeAddr (w : Word) : Nat := ((w >>> 9) &&& 0x7fffffffff).toNat

/-- utils.go:29 `explodeNode`: the number of children, `1 + int(byte(node>>countShift))`. -/
def nodeCount (w : Word) : Nat := 1 + (w >>> 56).toUInt8.toNat

/-- utils.go:29 `explodeNode`: the prefix length field, `int(byte(node >> prefixShift))`. -/
def nodePlen (w : Word) : Nat := (w >>> 48).toUInt8.toNat

/-- utils.go:37-39 `buildLeaf`. -/
def buildLeaf (key : UInt8) (value : Word) : Word := (value <<< 9) ||| 0x100 ||| key.toUInt64

/-- utils.go:41-43 `updateLeafKey`. -/
def updateLeafKey (leaf : Word) (key : UInt8) : Word := ((leaf >>> 8) <<< 8) ||| key.toUInt64

/-- utils.go:46-48 `getLeafValue`. -/
def leafValue (w : Word) : Word := w >>> 9

/-- utils.go:50-52 `isLeaf`. -/
def isLeaf (w : Word) : Bool := (w &&& 0x100) == 0x100

/-- The value actually kept of a 64-bit value: the low 55 bits (utils.go:36 "any overflow is truncated"). -/
def trunc55 (v : Word) : Word := v &&& 0x7fffffffffffff

/-! ## Numeric form -/

theorem toNat_keyByte (w : Word) : (keyByte w).toNat = w.toNat % 256 := by
  simp [keyByte]

theorem nodeAddr_eq (w : Word) : nodeAddr w = w.toNat / 512 % 2^39 := by
  have h := Nat.and_two_pow_sub_one_eq_mod (w.toNat / 512) 39
  have e : (2^39 - 1 : Nat) = 549755813887 := by decide
  rw [e] at h
  simp only [nodeAddr, UInt64.toNat_and, UInt64.toNat_shiftRight, UInt64.reduceToNat, Nat.reduceMod,
    Nat.shiftRight_eq_div_pow, Nat.reducePow]
  exact h

theorem nodeCount_eq (w : Word) : nodeCount w = 1 + w.toNat / 2^56 % 256 := by
  simp [nodeCount, Nat.shiftRight_eq_div_pow]

theorem nodePlen_eq (w : Word) : nodePlen w = w.toNat / 2^48 % 256 := by
  simp [nodePlen, Nat.shiftRight_eq_div_pow]

theorem toNat_leafValue (w : Word) : (leafValue w).toNat = w.toNat / 512 := by
  simp [leafValue, Nat.shiftRight_eq_div_pow]

theorem toNat_trunc55 (v : Word) : (trunc55 v).toNat = v.toNat % 2^55 := by
  have h := Nat.and_two_pow_sub_one_eq_mod v.toNat 55
  have e : (2^55 - 1 : Nat) = 36028797018963967 := by decide
  rw [e] at h
  simp only [trunc55, UInt64.toNat_and, UInt64.reduceToNat]
  exact h

theorem isLeaf_iff (w : Word) : isLeaf w = true ↔ w.toNat / 256 % 2 = 1 := by
  have h : (w.toNat &&& 256) = 256 * (w.toNat / 256 % 2) := by
    have e : (w.toNat &&& 256) = (w.toNat / 256 &&& 1) * 256 := by
      apply Nat.eq_of_testBit_eq; intro i
      rw [show (256:Nat) = 2^8 from rfl, show (1:Nat) = 2^0 from rfl, Nat.testBit_and, Nat.testBit_two_pow,
        Nat.testBit_mul_two_pow, Nat.testBit_and, Nat.testBit_div_two_pow, Nat.testBit_two_pow]
      rcases Nat.lt_trichotomy i 8 with h | h | h
      · have h1 : ¬ 8 = i := by omega
        have h2 : ¬ 8 ≤ i := by omega
        simp [h1, h2]
      · subst h; simp
      · have h1 : ¬ 8 = i := by omega
        have h2 : ¬ 0 = i - 8 := by omega
        simp [h1, h2]
    rw [e, Nat.and_one_is_mod, Nat.mul_comm]
  simp only [isLeaf, beq_iff_eq, ← UInt64.toNat_inj, UInt64.toNat_and, UInt64.reduceToNat]
  rw [h]; omega

theorem or_disj {a b i : Nat} (h : b < 2^i) : (a * 2^i) ||| b = a * 2^i + b := by
  rw [← Nat.shiftLeft_eq, ← Nat.shiftLeft_add_eq_or_of_lt h]

theorem toNat_buildNode (k : UInt8) (addr c pl : Nat) (ha : addr < 2^39) (hc : c ≤ 256) :
    (buildNode k addr c pl).toNat = (c - 1) * 2^56 + min pl 255 * 2^48 + addr * 2^9 + k.toNat := by
  have hk : k.toNat < 256 := k.toNat_lt
  have hpl : (if pl > 255 then 255 else pl) = min pl 255 := by split <;> omega
  have hm : min pl 255 ≤ 255 := Nat.min_le_right _ _
  simp only [buildNode, hpl, UInt64.toNat_or, UInt64.toNat_shiftLeft, UInt64.toNat_ofNat', UInt64.reduceToNat,
    Nat.shiftLeft_eq, UInt8.toNat_toUInt64]
  simp only [Nat.reduceMod]
  rw [Nat.mod_eq_of_lt (a := c - 1) (by omega), Nat.mod_eq_of_lt (a := min pl 255) (by omega),
    Nat.mod_eq_of_lt (a := addr) (by omega),
    Nat.mod_eq_of_lt (a := (c-1) * 2^56) (by omega), Nat.mod_eq_of_lt (a := min pl 255 * 2^48) (by omega),
    Nat.mod_eq_of_lt (a := addr * 2^9) (by omega)]
  have h1 : (c-1) * 2^56 ||| min pl 255 * 2^48 = (c-1) * 2^56 + min pl 255 * 2^48 := or_disj (by omega)
  rw [h1]
  have h2 : (c-1) * 2^56 + min pl 255 * 2^48 = ((c-1)*2^8 + min pl 255) * 2^48 := by omega
  rw [h2, or_disj (by omega)]
  obtain ⟨X, hX⟩ : ∃ X, X = (c-1)*2^8 + min pl 255 := ⟨_, rfl⟩
  rw [← hX]
  have h3 : X * 2^48 + addr * 2^9 = (X * 2^39 + addr) * 2^9 := by
    rw [Nat.add_mul, Nat.mul_assoc, ← Nat.pow_add]
  rw [h3, or_disj (by omega)]

theorem toNat_buildLeaf (k : UInt8) (v : Word) :
    (buildLeaf k v).toNat = (v.toNat % 2^55) * 512 + 256 + k.toNat := by
  have hk : k.toNat < 256 := k.toNat_lt
  simp only [buildLeaf, UInt64.toNat_or, UInt64.toNat_shiftLeft, UInt64.reduceToNat,
    Nat.shiftLeft_eq, UInt8.toNat_toUInt64, Nat.reduceMod]
  have h0 : v.toNat * 2^9 % 2^64 = (v.toNat % 2^55) * 2^9 := by omega
  rw [h0, or_disj (by omega)]
  have h1 : v.toNat % 2^55 * 2^9 + 256 = (v.toNat % 2^55 * 2 + 1) * 2^8 := by omega
  rw [h1, or_disj (by omega)]

theorem toNat_updateLeafKey (w : Word) (k : UInt8) :
    (updateLeafKey w k).toNat = w.toNat / 256 * 256 + k.toNat := by
  have hk : k.toNat < 256 := k.toNat_lt
  have hw := w.toNat_lt
  simp only [updateLeafKey, UInt64.toNat_or, UInt64.toNat_shiftLeft, UInt64.toNat_shiftRight, UInt64.reduceToNat,
    Nat.shiftLeft_eq, Nat.shiftRight_eq_div_pow, UInt8.toNat_toUInt64, Nat.reduceMod]
  have h0 : w.toNat / 2^8 * 2^8 % 2^64 = w.toNat / 2^8 * 2^8 := by omega
  rw [h0, or_disj (by omega)]

/-! ## Round trips -/

section node
variable {k : UInt8} {addr c pl : Nat}

@[simp] theorem keyByte_buildNode (ha : addr < 2^39) (hc : c ≤ 256) : keyByte (buildNode k addr c pl) = k := by
  have hk : k.toNat < 256 := k.toNat_lt
  apply UInt8.toNat_inj.mp
  rw [toNat_keyByte, toNat_buildNode _ _ _ _ ha hc]; omega

theorem nodeAddr_buildNode (ha : addr < 2^39) (hc : c ≤ 256) : nodeAddr (buildNode k addr c pl) = addr := by
  have hk : k.toNat < 256 := k.toNat_lt
  rw [nodeAddr_eq, toNat_buildNode _ _ _ _ ha hc]; omega

theorem nodeCount_buildNode (ha : addr < 2^39) (hc : c ≤ 256) (hc1 : 1 ≤ c) :
    nodeCount (buildNode k addr c pl) = c := by
  have hk : k.toNat < 256 := k.toNat_lt
  rw [nodeCount_eq, toNat_buildNode _ _ _ _ ha hc]
  have : min pl 255 ≤ 255 := Nat.min_le_right _ _
  omega

theorem nodePlen_buildNode (ha : addr < 2^39) (hc : c ≤ 256) :
    nodePlen (buildNode k addr c pl) = min pl 255 := by
  have hk : k.toNat < 256 := k.toNat_lt
  rw [nodePlen_eq, toNat_buildNode _ _ _ _ ha hc]
  have : min pl 255 ≤ 255 := Nat.min_le_right _ _
  omega

theorem isLeaf_buildNode (ha : addr < 2^39) (hc : c ≤ 256) : isLeaf (buildNode k addr c pl) = false := by
  have hk : k.toNat < 256 := k.toNat_lt
  rw [Bool.eq_false_iff, ne_eq, isLeaf_iff, toNat_buildNode _ _ _ _ ha hc]; omega

theorem buildNode_ne_zero (ha : addr < 2^39) (hc : c ≤ 256) (h : 0 < addr) : buildNode k addr c pl ≠ 0 := by
  intro h0
  have := congrArg UInt64.toNat h0
  rw [toNat_buildNode _ _ _ _ ha hc] at this
  simp at this; omega

end node

@[simp] theorem keyByte_buildLeaf (k : UInt8) (v : Word) : keyByte (buildLeaf k v) = k := by
  have hk : k.toNat < 256 := k.toNat_lt
  apply UInt8.toNat_inj.mp
  rw [toNat_keyByte, toNat_buildLeaf]; omega

@[simp] theorem leafValue_buildLeaf (k : UInt8) (v : Word) : leafValue (buildLeaf k v) = trunc55 v := by
  have hk : k.toNat < 256 := k.toNat_lt
  apply UInt64.toNat_inj.mp
  rw [toNat_leafValue, toNat_buildLeaf, toNat_trunc55]; omega

@[simp] theorem isLeaf_buildLeaf (k : UInt8) (v : Word) : isLeaf (buildLeaf k v) = true := by
  have hk : k.toNat < 256 := k.toNat_lt
  rw [isLeaf_iff, toNat_buildLeaf]; omega

theorem buildLeaf_ne_zero (k : UInt8) (v : Word) : buildLeaf k v ≠ 0 := by
  intro h; have := congrArg isLeaf h; rw [isLeaf_buildLeaf] at this; exact absurd this (by decide)

@[simp] theorem updateLeafKey_buildLeaf (k k' : UInt8) (v : Word) :
    updateLeafKey (buildLeaf k v) k' = buildLeaf k' v := by
  have hk : k.toNat < 256 := k.toNat_lt
  apply UInt64.toNat_inj.mp
  rw [toNat_updateLeafKey, toNat_buildLeaf, toNat_buildLeaf]; omega

@[simp] theorem buildLeaf_trunc55 (k : UInt8) (v : Word) : buildLeaf k (trunc55 v) = buildLeaf k v := by
  apply UInt64.toNat_inj.mp
  rw [toNat_buildLeaf, toNat_buildLeaf, toNat_trunc55]; omega

@[simp] theorem trunc55_trunc55 (v : Word) : trunc55 (trunc55 v) = trunc55 v := by
  apply UInt64.toNat_inj.mp
  rw [toNat_trunc55, toNat_trunc55]; omega

theorem trunc55_of_lt {v : Word} (h : v.toNat < 2^55) : trunc55 v = v := by
  apply UInt64.toNat_inj.mp
  rw [toNat_trunc55]; omega

theorem trunc55_lt (v : Word) : (trunc55 v).toNat < 2^55 := by rw [toNat_trunc55]; omega

theorem buildLeaf_inj {k k' : UInt8} {v v' : Word} (h : buildLeaf k v = buildLeaf k' v') :
    k = k' ∧ trunc55 v = trunc55 v' := by
  constructor
  · have := congrArg keyByte h; simpa using this
  · have := congrArg leafValue h; simpa using this

/-- Every leaf word is `buildLeaf` of its byte and value. -/
theorem eq_buildLeaf_of_isLeaf {w : Word} (h : isLeaf w = true) : w = buildLeaf (keyByte w) (leafValue w) := by
  rw [isLeaf_iff] at h
  have hw := w.toNat_lt
  apply UInt64.toNat_inj.mp
  rw [toNat_buildLeaf, toNat_keyByte, toNat_leafValue]; omega

end Radix
