import Verif.Model.Serial
/-!
# Saving and loading: what is written is read
-/
set_option autoImplicit false
namespace Radix

/-! ## Numbers -/

theorem digit_toNat {d : Nat} (h : d < 10) : ((48 + d).toUInt8).toNat = 48 + d := by
  simp [Nat.toUInt8, UInt8.ofNat, UInt8.toNat]; omega

theorem digit_isDigit {d : Nat} (h : d < 10) : isDigit (48 + d).toUInt8 = true := by
  have h1 := digit_toNat h
  simp only [isDigit, Bool.and_eq_true, decide_eq_true_eq, UInt8.le_iff_toNat_le, h1]
  constructor
  · show 48 ≤ _; omega
  · show _ ≤ 57; omega

theorem decDigits_digits : ∀ (f n : Nat), ∀ c ∈ decDigits f n, isDigit c = true := by
  intro f
  induction f with
  | zero => intro n c h; cases h
  | succ f ih =>
    intro n c h
    simp only [decDigits] at h
    split at h
    · rename_i hn
      rw [List.mem_singleton.1 h]
      exact digit_isDigit hn
    · rcases List.mem_append.1 h with h | h
      · exact ih _ c h
      · rw [List.mem_singleton.1 h]
        exact digit_isDigit (by omega)

/-- The number read so far. -/
def digitsVal (m : Nat) (xs : Bytes) : Nat := xs.foldl (fun m c => m * 10 + (c.toNat - 48)) m

theorem digitsVal_nil (m : Nat) : digitsVal m [] = m := by rw [digitsVal, List.foldl_nil]

theorem digitsVal_cons (m : Nat) (c : UInt8) (cs : Bytes) : digitsVal m (c :: cs) = digitsVal (m * 10 + (c.toNat - 48)) cs := by
  rw [digitsVal, List.foldl_cons, digitsVal]

theorem digitsVal_append (m : Nat) (xs ys : Bytes) : digitsVal m (xs ++ ys) = digitsVal (digitsVal m xs) ys := by
  unfold digitsVal
  rw [List.foldl_append]

theorem le_digitsVal (m : Nat) (xs : Bytes) : m ≤ digitsVal m xs := by
  induction xs generalizing m with
  | nil => rw [digitsVal_nil]; omega
  | cons c cs ih => rw [digitsVal_cons]; exact Nat.le_trans (by omega) (ih _)

theorem digitsVal_dec : ∀ (f n : Nat), n < f → digitsVal 0 (decDigits f n) = n := by
  intro f
  induction f with
  | zero => intro n h; omega
  | succ f ih =>
    intro n h
    simp only [decDigits]
    split
    · rename_i hn
      rw [digitsVal_cons, digitsVal_nil, digit_toNat hn, Nat.zero_mul, Nat.zero_add, Nat.add_sub_cancel_left]
    · rw [digitsVal_append, ih (n / 10) (by omega)]
      simp only [digitsVal_cons, digitsVal_nil, digit_toNat (show n % 10 < 10 by omega)]
      omega

theorem parseDigits_val : ∀ (xs : Bytes) (m : Nat), (∀ c ∈ xs, isDigit c = true) → digitsVal m xs ≤ maxUint64 →
    parseDigits m xs = digitsVal m xs := by
  intro xs
  induction xs with
  | nil => intro m _ _; rw [parseDigits, digitsVal_nil]
  | cons c cs ih =>
    intro m h1 h2
    have h3 := le_digitsVal (m * 10 + (c.toNat - 48)) cs
    rw [digitsVal_cons] at h2
    have hmax : maxUint64 = 18446744073709551615 := rfl
    rw [parseDigits, if_pos (h1 c List.mem_cons_self), if_neg (by omega)]
    simp only
    rw [if_neg (by omega), ih _ (fun d hd => h1 d (List.mem_cons_of_mem _ hd)) h2, digitsVal_cons]

theorem parseUint_dec {n : Nat} (h : n ≤ maxUint64) : parseUint (dec n) = n := by
  have h1 := digitsVal_dec (n + 1) n (by omega)
  unfold parseUint dec
  rw [parseDigits_val _ _ (decDigits_digits _ _) (by rw [h1]; exact h), h1]

theorem dec_ne_nil (n : Nat) : dec n ≠ [] := by
  unfold dec decDigits
  split
  · simp
  · simp

theorem dec_digits {n : Nat} {c : UInt8} (h : c ∈ dec n) : isDigit c = true := decDigits_digits _ _ c h

theorem parseInt_dec {n : Nat} (h : n < 9223372036854775808) : parseInt (dec n) = n := by
  have h1 := parseUint_dec (n := n) (by show n ≤ 18446744073709551615; omega)
  cases hd : dec n with
  | nil => exact absurd hd (dec_ne_nil n)
  | cons c cs =>
    have hc : isDigit c = true := dec_digits (n := n) (by rw [hd]; exact List.mem_cons_self)
    have h43 : (c == 43) = false := by
      cases hb : c == 43 with
      | false => rfl
      | true => rw [eq_of_beq hb] at hc; exact absurd hc (by decide)
    have h45 : (c == 45) = false := by
      cases hb : c == 45 with
      | false => rfl
      | true => rw [eq_of_beq hb] at hc; exact absurd hc (by decide)
    simp only [parseInt, h43, h45, Bool.or_false, Bool.false_eq_true, if_false]
    rw [← hd, h1, if_neg (by omega)]

theorem nl_not_dec (n : Nat) : nl ∉ dec n := fun h => absurd (dec_digits h) (by decide)
theorem sp_not_dec (n : Nat) : sp ∉ dec n := fun h => absurd (dec_digits h) (by decide)

theorem toSigned_of_lt {v : Nat} (h : v < 9223372036854775808) : toSigned v = v := by simp [toSigned, h]

/-! ## Words -/

theorem le64_length (n : Nat) : (le64 n).length = 8 := by simp [le64]

theorem byte_toNat (n : Nat) : (n % 256).toUInt8.toNat = n % 256 := by
  simp [Nat.toUInt8, UInt8.ofNat, UInt8.toNat]

theorem ofLe_le64 {n : Nat} (h : n ≤ maxUint64) : ofLe (le64 n) = n := by
  have hmax : maxUint64 = 18446744073709551615 := rfl
  have e : le64 n = [(n % 256).toUInt8, (n / 256 % 256).toUInt8, (n / 65536 % 256).toUInt8, (n / 16777216 % 256).toUInt8,
      (n / 4294967296 % 256).toUInt8, (n / 1099511627776 % 256).toUInt8, (n / 281474976710656 % 256).toUInt8,
      (n / 72057594037927936 % 256).toUInt8] := by
    simp [le64, List.range, List.range.loop]
  rw [e]
  simp only [ofLe, byte_toNat]
  omega

/-! ## Lines -/

theorem readLine_append {l rest : Bytes} (h : nl ∉ l) : readLine (l ++ nl :: rest) = some (l, rest) := by
  induction l with
  | nil => simp [readLine]
  | cons c cs ih =>
    have h1 : c ≠ nl := fun e => h (e ▸ List.mem_cons_self)
    simp only [List.cons_append, readLine, if_neg h1]
    rw [ih fun h' => h (List.mem_cons_of_mem _ h')]
    rfl

theorem splitSpace_append {k v : Bytes} (h : sp ∉ k) : splitSpace (k ++ sp :: v) = some (k, v) := by
  induction k with
  | nil => simp [splitSpace]
  | cons c cs ih =>
    have h1 : c ≠ sp := fun e => h (e ▸ List.mem_cons_self)
    simp only [List.cons_append, splitSpace, if_neg h1]
    rw [ih fun h' => h (List.mem_cons_of_mem _ h')]
    rfl

theorem readFull_append (l rest : Bytes) : readFull l.length (l ++ rest) = some (l, rest) := by
  simp [readFull]

theorem readItems_append : ∀ (l : List Item) (rest : Bytes), (∀ it ∈ l, it.n ≤ maxUint64) →
    readItems l.length ((l.flatMap fun it => le64 it.n) ++ rest) = some (l.map fun it => ⟨it.n, 0⟩, rest) := by
  intro l
  induction l with
  | nil => intro rest _; rfl
  | cons it l ih =>
    intro rest h
    have h1 : readFull 8 (le64 it.n ++ ((l.flatMap fun it => le64 it.n) ++ rest)) = some (le64 it.n, (l.flatMap fun it => le64 it.n) ++ rest) := by
      rw [← le64_length it.n]; exact readFull_append _ _
    simp only [List.length_cons, readItems, List.flatMap_cons, List.append_assoc, h1]
    rw [ih rest fun j hj => h j (List.mem_cons_of_mem _ hj)]
    simp [ofLe_le64 (h it List.mem_cons_self)]

/-! ## One allocator -/

/-- A line of an allocator. -/
theorem loadAlloc_line {f : Nat} {al : Alloc} {key values rest : Bytes} (h1 : sp ∉ key) (h2 : nl ∉ key) (h3 : nl ∉ values) :
    loadAlloc (f + 1) al (key ++ sp :: (values ++ nl :: rest)) =
      (if key = txt ['n', 'e', 'x', 't', '_', 'f', 'r', 'e', 'e'] then loadAlloc f { al with nextFree := parseUint values } rest
          else if key = txt ['b', 'l', 'o', 'c', 'k'] then loadAlloc f { al with block := parseUint values } rest
          else if key = txt ['o', 'f', 'f', 's', 'e', 't'] then loadAlloc f { al with offset := parseUint values } rest
          else if key = txt ['r', 'e', 'c', 'y', 'c', 'l', 'e', 'r'] then
            match loadRecycler al values rest with
            | .error e => .error e
            | .ok (al, input) => loadAlloc f al input
          else loadAlloc f al rest) := by
  have e : key ++ sp :: (values ++ nl :: rest) = (key ++ sp :: values) ++ nl :: rest := by simp
  have hn : nl ∉ key ++ sp :: values := by
    intro h
    rcases List.mem_append.1 h with h | h
    · exact h2 h
    · rcases List.mem_cons.1 h with h | h
      · exact absurd h (by decide)
      · exact h3 h
  rw [e, loadAlloc, readLine_append hn]
  simp only
  rw [if_neg (by simp), splitSpace_append h1]
  rfl

/-- The free lists from size `i` on. -/
theorem loadAlloc_recyclers : ∀ (l : List Nat) (r : Nat → List Item) (al : Alloc) (f : Nat) (rest : Bytes),
    (∀ i ∈ l, i < recyclerLen ∧ (r i).length * 16 ≤ maxAlloc ∧ ∀ it ∈ r i, it.n ≤ maxUint64) → (∀ i ∈ l, al.recycler i = []) → l.Nodup →
    ((l.flatMap fun i => recyclerBytes i (r i)) ++ nl :: rest).length < f →
    ∃ al', loadAlloc f al ((l.flatMap fun i => recyclerBytes i (r i)) ++ nl :: rest) = .ok (al', rest) ∧
      al' = { al with recycler := fun i => if i ∈ l then (r i).map fun it => ⟨it.n, 0⟩ else al.recycler i } := by
  intro l
  induction l with
  | nil =>
    intro r al f rest _ _ _ hf
    obtain ⟨f, rfl⟩ : ∃ g, f = g + 1 := ⟨f - 1, by simp at hf; omega⟩
    refine ⟨al, ?_, by simp⟩
    simp [loadAlloc, readLine]
  | cons i l ih =>
    intro r al f rest h1 h2 hnd hf
    obtain ⟨hi, hni⟩ : i ∉ l ∧ l.Nodup := List.nodup_cons.1 hnd
    obtain ⟨k1, k2, k3⟩ := h1 i List.mem_cons_self
    by_cases hl : (r i).length = 0
    · have e : recyclerBytes i (r i) = [] := by simp [recyclerBytes, hl]
      have hr : r i = [] := List.eq_nil_of_length_eq_zero hl
      simp only [List.flatMap_cons, e, List.nil_append] at hf ⊢
      obtain ⟨al', g1, g2⟩ := ih r al f rest (fun j hj => h1 j (List.mem_cons_of_mem _ hj)) (fun j hj => h2 j (List.mem_cons_of_mem _ hj)) hni hf
      refine ⟨al', g1, ?_⟩
      rw [g2]
      congr 1
      funext j
      by_cases hj : j = i
      · subst hj
        simp [hi, hr, h2 j List.mem_cons_self]
      · simp [hj]
    · have e : recyclerBytes i (r i) = txt ['r', 'e', 'c', 'y', 'c', 'l', 'e', 'r'] ++ sp :: ((dec i ++ sp :: dec (r i).length) ++ nl ::
          ((r i).flatMap fun it => le64 it.n)) := by
        have : txt ['r', 'e', 'c', 'y', 'c', 'l', 'e', 'r', ' '] = txt ['r', 'e', 'c', 'y', 'c', 'l', 'e', 'r'] ++ [sp] := by decide
        simp [recyclerBytes, hl, this]
      have hmx : maxAlloc = 281474976710656 := rfl
      have hrl : recyclerLen = 258 := rfl
      obtain ⟨f, rfl⟩ : ∃ g, f = g + 1 := ⟨f - 1, by simp at hf; omega⟩
      have e2 : ((i :: l).flatMap fun i => recyclerBytes i (r i)) ++ nl :: rest = txt ['r', 'e', 'c', 'y', 'c', 'l', 'e', 'r'] ++
          sp :: ((dec i ++ sp :: dec (r i).length) ++ nl :: (((r i).flatMap fun it => le64 it.n) ++
            ((l.flatMap fun i => recyclerBytes i (r i)) ++ nl :: rest))) := by
        rw [List.flatMap_cons, e]; simp
      have hv : nl ∉ dec i ++ sp :: dec (r i).length := by
        intro h
        rcases List.mem_append.1 h with h | h
        · exact nl_not_dec _ h
        · rcases List.mem_cons.1 h with h | h
          · exact absurd h (by decide)
          · exact nl_not_dec _ h
      rw [e2] at hf ⊢
      rw [loadAlloc_line (by decide) (by decide) hv, if_neg (by decide), if_neg (by decide), if_neg (by decide), if_pos rfl]
      have hlr : loadRecycler al (dec i ++ sp :: dec (r i).length) (((r i).flatMap fun it => le64 it.n) ++
            ((l.flatMap fun i => recyclerBytes i (r i)) ++ nl :: rest)) =
          .ok ({ al with recycler := upd al.recycler i ((r i).map fun it => ⟨it.n, 0⟩) }, (l.flatMap fun i => recyclerBytes i (r i)) ++ nl :: rest) := by
        rw [loadRecycler, splitSpace_append (sp_not_dec i)]
        simp only
        rw [parseInt_dec (by omega), parseInt_dec (by omega), if_neg (by omega)]
        rw [show ((r i).length : Int).toNat = (r i).length from rfl, readItems_append _ _ k3]
        rfl
      rw [hlr]
      simp only
      obtain ⟨al', g1, g2⟩ := ih r { al with recycler := upd al.recycler i ((r i).map fun it => ⟨it.n, 0⟩) } f rest
        (fun j hj => h1 j (List.mem_cons_of_mem _ hj))
        (fun j hj => by
          have : j ≠ i := fun e => hi (e ▸ hj)
          simp only [upd_of_ne _ _ this]
          exact h2 j (List.mem_cons_of_mem _ hj)) hni (by simp only [List.length_append, List.length_cons] at hf ⊢; omega)
      refine ⟨al', g1, ?_⟩
      rw [g2]
      congr 1
      funext j
      by_cases hj : j = i
      · subst hj
        simp [hi]
      · simp [hj, upd_of_ne _ _ hj]

/-- The numbers of an allocator fit the machine. -/
structure AllocFits (al : Alloc) : Prop where
  nextFree : al.nextFree ≤ maxUint64
  block : al.block ≤ maxUint64
  offset : al.offset ≤ maxUint64
  lists : ∀ i, i < recyclerLen → (al.recycler i).length * 16 ≤ maxAlloc ∧ ∀ it ∈ al.recycler i, it.n ≤ maxUint64

theorem loadAlloc_bytes {al : Alloc} (h : AllocFits al) (empty : Bool) (rest : Bytes) {f : Nat} (hf : (allocBytes empty al ++ rest).length < f) :
    loadAlloc f { ({} : Alloc) with recycler := fun _ => [] } (allocBytes empty al ++ rest) = .ok (al.restore, rest) := by
  have hb : blockSize ≤ maxUint64 := by decide
  have e : ∀ w : Bytes, allocBytes empty al ++ rest =
      txt ['e', 'm', 'p', 't', 'y'] ++ sp :: ((if empty then txt ['t', 'r', 'u', 'e'] else txt ['f', 'a', 'l', 's', 'e']) ++ nl ::
      (txt ['n', 'e', 'x', 't', '_', 'f', 'r', 'e', 'e'] ++ sp :: (dec al.nextFree ++ nl ::
      (txt ['b', 'l', 'o', 'c', 'k'] ++ sp :: (dec al.block ++ nl ::
      (txt ['b', 'l', 'o', 'c', 'k', '_', 's', 'i', 'z', 'e'] ++ sp :: (dec blockSize ++ nl ::
      (txt ['o', 'f', 'f', 's', 'e', 't'] ++ sp :: (dec al.offset ++ nl ::
      (((List.range recyclerLen).flatMap fun i => recyclerBytes i (al.recycler i)) ++ nl :: rest)))))))))) := by
    intro _
    have e1 : txt ['e', 'm', 'p', 't', 'y', ' '] = txt ['e', 'm', 'p', 't', 'y'] ++ [sp] := by decide
    have e2 : txt ['n', 'e', 'x', 't', '_', 'f', 'r', 'e', 'e', ' '] = txt ['n', 'e', 'x', 't', '_', 'f', 'r', 'e', 'e'] ++ [sp] := by decide
    have e3 : txt ['b', 'l', 'o', 'c', 'k', ' '] = txt ['b', 'l', 'o', 'c', 'k'] ++ [sp] := by decide
    have e4 : txt ['b', 'l', 'o', 'c', 'k', '_', 's', 'i', 'z', 'e', ' '] = txt ['b', 'l', 'o', 'c', 'k', '_', 's', 'i', 'z', 'e'] ++ [sp] := by decide
    have e5 : txt ['o', 'f', 'f', 's', 'e', 't', ' '] = txt ['o', 'f', 'f', 's', 'e', 't'] ++ [sp] := by decide
    simp only [allocBytes, e1, e2, e3, e4, e5, List.append_assoc, List.cons_append, List.nil_append]
  rw [e []] at hf ⊢
  simp only [List.length_append, List.length_cons] at hf
  obtain ⟨f, rfl⟩ : ∃ g, f = g + 5 := ⟨f - 5, by omega⟩
  have hw : nl ∉ (if empty then txt ['t', 'r', 'u', 'e'] else txt ['f', 'a', 'l', 's', 'e']) := by cases empty <;> decide
  rw [loadAlloc_line (by decide) (by decide) hw, if_neg (by decide), if_neg (by decide), if_neg (by decide), if_neg (by decide),
    loadAlloc_line (by decide) (by decide) (nl_not_dec _), if_pos rfl,
    loadAlloc_line (by decide) (by decide) (nl_not_dec _), if_neg (by decide), if_pos rfl,
    loadAlloc_line (by decide) (by decide) (nl_not_dec _), if_neg (by decide), if_neg (by decide), if_neg (by decide), if_neg (by decide),
    loadAlloc_line (by decide) (by decide) (nl_not_dec _), if_neg (by decide), if_neg (by decide), if_pos rfl]
  rw [parseUint_dec h.nextFree, parseUint_dec h.block, parseUint_dec h.offset]
  obtain ⟨al', g1, g2⟩ := loadAlloc_recyclers (List.range recyclerLen) al.recycler
    { nextFree := al.nextFree, block := al.block, offset := al.offset, recycler := fun _ => [] } f rest
    (fun i hi => ⟨List.mem_range.1 hi, h.lists i (List.mem_range.1 hi)⟩) (fun _ _ => rfl) List.nodup_range (by
      simp only [List.length_append, List.length_cons]; omega)
  rw [g1, g2]
  simp [Alloc.restore]

/-! ## The tree -/

theorem loadLoop_line {dc : Bytes → Option Bytes} {f : Nat} {L L' : Loaded} {cur cur' : Int} {key values rest rest' : Bytes}
    (h1 : sp ∉ key) (h2 : nl ∉ key) (h3 : nl ∉ values) (h : loadLine dc L cur key values rest = .ok (L', cur', rest')) :
    loadLoop dc (f + 1) L cur (key ++ sp :: (values ++ nl :: rest)) = loadLoop dc f L' cur' rest' := by
  have e : key ++ sp :: (values ++ nl :: rest) = (key ++ sp :: values) ++ nl :: rest := by simp
  have hn : nl ∉ key ++ sp :: values := by
    intro h
    rcases List.mem_append.1 h with h | h
    · exact h2 h
    · rcases List.mem_cons.1 h with h | h
      · exact absurd h (by decide)
      · exact h3 h
  rw [e, loadLoop, readLine_append hn]
  simp only
  rw [splitSpace_append h1]
  simp only
  rw [h]

/-- The numbers of a state fit the machine. -/
structure Fits (st : St) : Prop where
  live : st.live < 9223372036854775808
  epoch : st.epoch ≤ maxUint64
  nalloc : st.nalloc * 8 ≤ maxAlloc
  alloc : ∀ a, a < st.nalloc → AllocFits (st.allocs a)

theorem word_le (w : Word) : w.toNat ≤ maxUint64 := by
  have h1 := w.toNat_lt
  have h2 : maxUint64 = 18446744073709551615 := rfl
  omega

theorem decInt_of_nonneg {i : Int} (h : 0 ≤ i) : decInt i = dec i.toNat := by
  cases i with
  | ofNat n => rfl
  | negSucc n => exact absurd h (by simp)

theorem nl_not_decInt (i : Int) : nl ∉ decInt i := by
  cases i with
  | ofNat n => exact nl_not_dec n
  | negSucc n =>
    intro h
    rcases List.mem_cons.1 h with h | h
    · exact absurd h (by decide)
    · exact nl_not_dec _ h

/-- A negative number is read as 0. -/
theorem parseUint_decInt {i : Int} (h : i < 9223372036854775808) : toSigned (parseUint (decInt i)) = if i < 0 then 0 else i := by
  have hmax : maxUint64 = 18446744073709551615 := rfl
  cases i with
  | ofNat n =>
    have h1 : n < 9223372036854775808 := by simp at h; omega
    rw [decInt, parseUint_dec (by omega), toSigned_of_lt h1, if_neg (by simp)]
    rfl
  | negSucc n => rw [if_pos (by exact Int.negSucc_lt_zero n)]; rfl

/-- After the header. -/
def Loaded.header (st : St) (next : Nat) : Loaded :=
  { live := if st.live < 0 then 0 else st.live, next := next, epoch := some st.epoch, root := st.root.toNat, nalloc := st.nalloc }

/-- After the allocators `i < k`. -/
def Loaded.withAllocs (st : St) (next k : Nat) : Loaded :=
  { Loaded.header st next with allocs := fun a => if a < k then (st.allocs a).restore else {} }

/-- After the blocks in `done`. -/
def Loaded.withBlocks (st : St) (next : Nat) (done : List Nat) : Loaded :=
  { Loaded.withAllocs st next st.nalloc with blocks := fun b => if b ∈ done then some (blockBytes st.mem b) else none }

/-- What may have been read of a written state. -/
def Loaded.PartOf (st : St) (next : Nat) (order : List Nat) (L : Loaded) : Prop :=
  L.epoch = none ∨
  (L.next = next ∧ L.nalloc = st.nalloc ∧ L.blocks = (fun _ => none) ∧ (L.root = 0 ∨ L.root = st.root.toNat) ∧
    ∀ a, L.allocs a = {} ∨ a < st.nalloc ∧ L.allocs a = (st.allocs a).restore) ∨
  ∃ done rest, order = done ++ rest ∧ L = .withBlocks st next done.reverse

/-- `n` lines (with the data belonging to them) are read, and before each of them the tree satisfies `P`. -/
inductive Reads (dc : Bytes → Option Bytes) (P : Loaded → Prop) : Nat → Loaded → Int → Bytes → Loaded → Int → Bytes → Prop
  | refl {L cur rest} : Reads dc P 0 L cur rest L cur rest
  | line {n L L1 L2 cur cur1 cur2 key values rest rest1 rest2} : sp ∉ key → nl ∉ key → nl ∉ values → P L →
      loadLine dc L cur key values rest = .ok (L1, cur1, rest1) → Reads dc P n L1 cur1 rest1 L2 cur2 rest2 →
      Reads dc P (n + 1) L cur (key ++ sp :: (values ++ nl :: rest)) L2 cur2 rest2

theorem Reads.loop {dc : Bytes → Option Bytes} {P : Loaded → Prop} {n : Nat} {L L' : Loaded} {cur cur' : Int} {input rest : Bytes}
    (h : Reads dc P n L cur input L' cur' rest) (f : Nat) : loadLoop dc (f + n) L cur input = loadLoop dc f L' cur' rest := by
  induction h with
  | refl => rfl
  | line h1 h2 h3 _ h5 _ ih => rw [← Nat.add_assoc, loadLoop_line h1 h2 h3 h5, ih]

theorem Reads.trans {dc : Bytes → Option Bytes} {P : Loaded → Prop} {n m : Nat} {L L' L'' : Loaded} {cur cur' cur'' : Int} {input rest rest' : Bytes}
    (h : Reads dc P n L cur input L' cur' rest) (h' : Reads dc P m L' cur' rest L'' cur'' rest') : Reads dc P (m + n) L cur input L'' cur'' rest' := by
  induction h with
  | refl => exact h'
  | line h1 h2 h3 h4 h5 _ ih => exact .line h1 h2 h3 h4 h5 (ih h')

theorem reads_header {dc : Bytes → Option Bytes} {st : St} (hfit : Fits st) {next : Nat} (hn : next ≤ maxUint64) (order : List Nat) (rest : Bytes) :
    Reads dc (Loaded.PartOf st next order) 6 {} (-1) (headerBytes st next ++ rest) (.header st next) (-1) rest := by
  have e : headerBytes st next ++ rest =
      txt ['o', 'b', 'j', 'e', 'c', 't', 's'] ++ sp :: (decInt st.live ++ nl ::
      (txt ['b', 'l', 'o', 'c', 'k', 's', 'i', 'z', 'e'] ++ sp :: (dec blockSize ++ nl ::
      (txt ['a', 'l', 'l', 'o', 'c', 'a', 't', 'e', 'd', '_', 'b', 'l', 'o', 'c', 'k', 's'] ++ sp :: (dec next ++ nl ::
      (txt ['a', 'l', 'l', 'o', 'c', 'a', 't', 'o', 'r', 's'] ++ sp :: (dec st.nalloc ++ nl ::
      (txt ['r', 'o', 'o', 't', '_', 'n', 'o', 'd', 'e'] ++ sp :: (dec st.root.toNat ++ nl ::
      (txt ['e', 'p', 'o', 'c', 'h'] ++ sp :: (dec st.epoch ++ nl :: rest))))))))))) := by
    have e1 : txt ['o', 'b', 'j', 'e', 'c', 't', 's', ' '] = txt ['o', 'b', 'j', 'e', 'c', 't', 's'] ++ [sp] := by decide
    have e2 : txt ['b', 'l', 'o', 'c', 'k', 's', 'i', 'z', 'e', ' '] = txt ['b', 'l', 'o', 'c', 'k', 's', 'i', 'z', 'e'] ++ [sp] := by decide
    have e3 : txt ['a', 'l', 'l', 'o', 'c', 'a', 't', 'e', 'd', '_', 'b', 'l', 'o', 'c', 'k', 's', ' '] =
      txt ['a', 'l', 'l', 'o', 'c', 'a', 't', 'e', 'd', '_', 'b', 'l', 'o', 'c', 'k', 's'] ++ [sp] := by decide
    have e4 : txt ['a', 'l', 'l', 'o', 'c', 'a', 't', 'o', 'r', 's', ' '] = txt ['a', 'l', 'l', 'o', 'c', 'a', 't', 'o', 'r', 's'] ++ [sp] := by decide
    have e5 : txt ['r', 'o', 'o', 't', '_', 'n', 'o', 'd', 'e', ' '] = txt ['r', 'o', 'o', 't', '_', 'n', 'o', 'd', 'e'] ++ [sp] := by decide
    have e6 : txt ['e', 'p', 'o', 'c', 'h', ' '] = txt ['e', 'p', 'o', 'c', 'h'] ++ [sp] := by decide
    simp only [headerBytes, e1, e2, e3, e4, e5, e6, List.append_assoc, List.cons_append, List.nil_append]
  have hmax : maxUint64 = 18446744073709551615 := rfl
  have hmx : maxAlloc = 281474976710656 := rfl
  have h1 := hfit.live
  have h2 := hfit.nalloc
  rw [e]
  refine .line (L1 := { ({} : Loaded) with live := if st.live < 0 then 0 else st.live }) (cur1 := -1) (by decide) (by decide) (nl_not_decInt _) (.inl rfl) (by
    rw [loadLine]; simp only; rw [if_pos (by trivial), parseUint_decInt h1]) ?_
  refine .line (L1 := { ({} : Loaded) with live := if st.live < 0 then 0 else st.live }) (cur1 := -1) (by decide) (by decide) (nl_not_dec _) (.inl rfl) (by
    rw [loadLine]; simp only; rw [if_neg (by decide), if_pos (by trivial), parseUint_dec (by decide), if_neg (by simp)]) ?_
  refine .line (L1 := { ({} : Loaded) with live := if st.live < 0 then 0 else st.live, next := next }) (cur1 := -1) (by decide) (by decide) (nl_not_dec _) (.inl rfl) (by
    rw [loadLine]; simp only; rw [if_neg (by decide), if_neg (by decide), if_pos (by trivial), parseUint_dec hn]) ?_
  refine .line (L1 := { ({} : Loaded) with live := if st.live < 0 then 0 else st.live, next := next, nalloc := st.nalloc, epoch := some 0 }) (cur1 := -1)
    (by decide) (by decide) (nl_not_dec _) (.inl rfl) (by
    rw [loadLine]; simp only; rw [if_neg (by decide), if_neg (by decide), if_neg (by decide), if_neg (by decide), if_neg (by decide), if_pos (by trivial),
      parseUint_dec (by omega), if_neg (by omega)]) ?_
  refine .line (L1 := { ({} : Loaded) with live := if st.live < 0 then 0 else st.live, next := next, nalloc := st.nalloc, epoch := some 0, root := st.root.toNat })
    (cur1 := -1) (by decide) (by decide) (nl_not_dec _) (.inr (.inl ⟨rfl, rfl, rfl, .inl rfl, fun _ => .inl rfl⟩)) (by
    rw [loadLine]; simp only; rw [if_neg (by decide), if_neg (by decide), if_neg (by decide), if_neg (by decide), if_pos (by trivial),
      parseUint_dec (word_le _)]) ?_
  refine .line (L1 := .header st next) (cur1 := -1) (by decide) (by decide) (nl_not_dec _) (.inr (.inl ⟨rfl, rfl, rfl, .inr rfl, fun _ => .inl rfl⟩)) (by
    rw [loadLine]; simp only; rw [if_neg (by decide), if_neg (by decide), if_neg (by decide), if_pos (by trivial),
      parseUint_dec hfit.epoch, if_neg (by simp)]; rfl) .refl

theorem reads_alloc {dc : Bytes → Option Bytes} {st : St} (hfit : Fits st) {next : Nat} {empty : Nat → Bool} {k : Nat} (hk : k < st.nalloc)
    (order : List Nat) (rest : Bytes) :
    Reads dc (Loaded.PartOf st next order) 1 (.withAllocs st next k) (-1) (allocatorBytes st empty k ++ rest) (.withAllocs st next (k + 1)) (-1) rest := by
  have hmax : maxUint64 = 18446744073709551615 := rfl
  have hmx : maxAlloc = 281474976710656 := rfl
  have h2 := hfit.nalloc
  have e : allocatorBytes st empty k ++ rest = txt ['a', 'l', 'l', 'o', 'c', 'a', 't', 'o', 'r'] ++ sp :: (dec k ++ nl ::
      (allocBytes (empty k) (st.allocs k) ++ rest)) := by
    have e1 : txt ['a', 'l', 'l', 'o', 'c', 'a', 't', 'o', 'r', ' '] = txt ['a', 'l', 'l', 'o', 'c', 'a', 't', 'o', 'r'] ++ [sp] := by decide
    simp only [allocatorBytes, e1, List.append_assoc, List.cons_append, List.nil_append]
  rw [e]
  refine .line (by decide) (by decide) (nl_not_dec _) (.inr (.inl ⟨rfl, rfl, rfl, .inr rfl, fun a => ?_⟩)) ?_ .refl
  · by_cases h : a < k
    · exact .inr ⟨by omega, by simp [Loaded.withAllocs, h]⟩
    · exact .inl (by simp [Loaded.withAllocs, h])
  rw [loadLine]
  simp only
  rw [if_neg (by decide), if_neg (by decide), if_neg (by decide), if_neg (by decide), if_neg (by decide), if_neg (by decide), if_pos (by trivial),
    parseUint_dec (by omega), toSigned_of_lt (by omega)]
  have hna : (Loaded.withAllocs st next k).nalloc = st.nalloc := rfl
  rw [hna, if_neg (by omega), if_neg (by omega)]
  have ha : ({ (Loaded.withAllocs st next k).allocs k with recycler := fun _ => [] } : Alloc) = { ({} : Alloc) with recycler := fun _ => [] } := by
    simp [Loaded.withAllocs]
  rw [ha, loadAlloc_bytes (hfit.alloc k hk) (empty k) rest (Nat.lt_succ_self _)]
  simp only [Loaded.withAllocs]
  congr 3
  funext a
  by_cases hak : a = k
  · subst hak; simp
  · rw [upd_of_ne _ _ hak]
    by_cases h : a < k
    · rw [if_pos h, if_pos (by omega)]
    · rw [if_neg h, if_neg (by omega)]

theorem allocatorBytes_pos (st : St) (empty : Nat → Bool) (k : Nat) : 0 < (allocatorBytes st empty k).length := by
  simp [allocatorBytes, txt]

theorem flatMap_length_ge {α : Type} (g : α → Bytes) (hg : ∀ a, 0 < (g a).length) : ∀ l : List α, l.length ≤ (l.flatMap g).length := by
  intro l
  induction l with
  | nil => simp
  | cons a l ih => have := hg a; simp only [List.flatMap_cons, List.length_cons, List.length_append]; omega

theorem reads_allocs {dc : Bytes → Option Bytes} {st : St} (hfit : Fits st) {next : Nat} {empty : Nat → Bool} (order : List Nat) (rest : Bytes) :
    ∀ (d k : Nat), k + d = st.nalloc →
      Reads dc (Loaded.PartOf st next order) d (.withAllocs st next k) (-1) ((List.range' k d).flatMap (allocatorBytes st empty) ++ rest)
        (.withAllocs st next st.nalloc) (-1) rest := by
  intro d
  induction d with
  | zero => intro k h; have : k = st.nalloc := by omega
            subst this; exact .refl
  | succ d ih =>
    intro k h
    rw [List.range'_succ, List.flatMap_cons, List.append_assoc]
    exact (reads_alloc hfit (by omega) order _).trans (ih (k + 1) (by omega))

/-! ## Blocks -/

/-- What is assumed about the compression: decompressing gives the data back, and compressed data is not absurdly long. -/
structure Codec (enc : Bytes → Bytes) (dc : Bytes → Option Bytes) : Prop where
  rt : ∀ x, x.length = blockSize → dc (enc x) = some x
  len : ∀ x, x.length = blockSize → (enc x).length ≤ maxAlloc

theorem flatMap_le64_length (l : List Nat) : (l.flatMap le64).length = 8 * l.length := by
  induction l with
  | nil => rfl
  | cons a l ih => simp only [List.flatMap_cons, List.length_append, le64_length, ih, List.length_cons]; omega

theorem blockBytes_eq (mem : Mem) (b : Nat) :
    blockBytes mem b = ((List.range blockSlots).map fun i => (mem (b * blockSlots + i)).toNat).flatMap le64 := by
  rw [List.flatMap_map]; rfl

theorem blockBytes_length (mem : Mem) (b : Nat) : (blockBytes mem b).length = blockSize := by
  rw [blockBytes_eq, flatMap_le64_length, List.length_map, List.length_range]
  rfl

theorem blockData_self {d : Bytes} (h : d.length = blockSize) : blockData d = d := by
  simp [blockData, h]

theorem flatMap_le64_word (l : List Nat) : ∀ (i : Nat) (h : i < l.length), ((l.flatMap le64).drop (8 * i)).take 8 = le64 l[i] := by
  induction l with
  | nil => intro i h; simp at h
  | cons a l ih =>
    intro i h
    cases i with
    | zero => simp [List.flatMap_cons, le64_length]
    | succ i =>
      have h1 := ih i (by simpa using h)
      rw [List.flatMap_cons, show 8 * (i + 1) = (le64 a).length + 8 * i by rw [le64_length]; omega, List.drop_append, List.drop_eq_nil_of_le (by omega), List.nil_append,
        show (le64 a).length + 8 * i - (le64 a).length = 8 * i by omega]
      simpa using h1

theorem blockWord_bytes (mem : Mem) (b i : Nat) (h : i < blockSlots) : blockWord (blockBytes mem b) i = mem (b * blockSlots + i) := by
  unfold blockWord
  rw [blockBytes_eq, flatMap_le64_word _ i (by simpa using h)]
  rw [ofLe_le64 (by simp only [List.getElem_map]; exact word_le _)]
  simp

theorem reads_block {enc : Bytes → Bytes} {dc : Bytes → Option Bytes} (hc : Codec enc dc) {st : St} {next b : Nat} {done : List Nat} {cur : Int}
    (hb : b < maxBlockCount) {order : List Nat} (hP : Loaded.PartOf st next order (.withBlocks st next done)) (rest : Bytes) :
    Reads dc (Loaded.PartOf st next order) 3 (.withBlocks st next done) cur (blockJob enc st.mem b ++ rest) (.withBlocks st next (b :: done)) b rest := by
  have hmax : maxUint64 = 18446744073709551615 := rfl
  have hmx : maxAlloc = 281474976710656 := rfl
  have hmb : maxBlockCount = 65536 := rfl
  have hlen := hc.len _ (blockBytes_length st.mem b)
  have e : blockJob enc st.mem b ++ rest = txt ['b', 'l', 'o', 'c', 'k'] ++ sp :: (dec b ++ nl ::
      (txt ['c', 'o', 'm', 'p', 'r', 'e', 's', 's', 'i', 'o', 'n'] ++ sp :: (txt ['s', 'n', 'a', 'p', 'p', 'y'] ++ nl ::
      (txt ['s', 'i', 'z', 'e'] ++ sp :: (dec (enc (blockBytes st.mem b)).length ++ nl :: (enc (blockBytes st.mem b) ++ rest)))))) := by
    have e1 : txt ['b', 'l', 'o', 'c', 'k', ' '] = txt ['b', 'l', 'o', 'c', 'k'] ++ [sp] := by decide
    have e2 : txt ['c', 'o', 'm', 'p', 'r', 'e', 's', 's', 'i', 'o', 'n', ' ', 's', 'n', 'a', 'p', 'p', 'y'] =
      txt ['c', 'o', 'm', 'p', 'r', 'e', 's', 's', 'i', 'o', 'n'] ++ sp :: txt ['s', 'n', 'a', 'p', 'p', 'y'] := by decide
    have e3 : txt ['s', 'i', 'z', 'e', ' '] = txt ['s', 'i', 'z', 'e'] ++ [sp] := by decide
    simp only [blockJob, e1, e2, e3, List.append_assoc, List.cons_append, List.nil_append]
  rw [e]
  refine .line (L1 := .withBlocks st next done) (cur1 := b) (by decide) (by decide) (nl_not_dec _) hP (by
    rw [loadLine]; simp only
    rw [if_neg (by decide), if_neg (by decide), if_neg (by decide), if_neg (by decide), if_neg (by decide), if_neg (by decide), if_neg (by decide),
      if_pos (by trivial), parseUint_dec (by omega), toSigned_of_lt (by omega), if_neg (by omega)]) ?_
  refine .line (L1 := .withBlocks st next done) (cur1 := b) (by decide) (by decide) (by decide) hP (by
    rw [loadLine]; simp only
    rw [if_neg (by decide), if_neg (by decide), if_neg (by decide), if_neg (by decide), if_neg (by decide), if_neg (by decide), if_neg (by decide),
      if_neg (by decide), if_neg (by decide)]) ?_
  refine .line (by decide) (by decide) (nl_not_dec _) hP ?_ .refl
  rw [loadLine]
  simp only
  rw [if_neg (by decide), if_neg (by decide), if_neg (by decide), if_neg (by decide), if_neg (by decide), if_neg (by decide), if_neg (by decide),
    if_neg (by decide), if_pos (by trivial), if_neg (by omega), parseUint_dec (by omega), toSigned_of_lt (by omega), if_neg (by omega), readFull_append]
  simp only
  rw [hc.rt _ (blockBytes_length st.mem b)]
  simp only [blockData_self (blockBytes_length st.mem b), Loaded.withBlocks, Int.toNat_natCast]
  congr 3
  funext b'
  by_cases h : b' = b
  · subst h; simp
  · simp [upd_of_ne _ _ h, h]

theorem reads_blocks {enc : Bytes → Bytes} {dc : Bytes → Option Bytes} (hc : Codec enc dc) {st : St} {next : Nat} (order : List Nat) (rest : Bytes) :
    ∀ (todo done : List Nat) (cur : Int), order = done.reverse ++ todo → (∀ b ∈ todo, b < maxBlockCount) →
      ∃ cur', Reads dc (Loaded.PartOf st next order) (3 * todo.length) (.withBlocks st next done) cur (todo.flatMap (blockJob enc st.mem) ++ rest)
        (.withBlocks st next (todo.reverse ++ done)) cur' rest := by
  intro todo
  induction todo with
  | nil => intro done cur _ _; exact ⟨cur, by simpa using Reads.refl⟩
  | cons b todo ih =>
    intro done cur ho h
    obtain ⟨cur', h1⟩ := ih (b :: done) b (by rw [ho]; simp) fun b' hb' => h b' (List.mem_cons_of_mem _ hb')
    refine ⟨cur', ?_⟩
    rw [List.flatMap_cons, List.append_assoc, show 3 * (b :: todo).length = 3 * todo.length + 3 by simp only [List.length_cons]; omega,
      List.reverse_cons, List.append_assoc, List.singleton_append]
    exact (reads_block hc (h b List.mem_cons_self) (.inr (.inr ⟨done.reverse, b :: todo, ho, by simp⟩)) _).trans h1

theorem blockJob_length (enc : Bytes → Bytes) (mem : Mem) (b : Nat) : 3 ≤ (blockJob enc mem b).length := by
  simp [blockJob, txt]

theorem blockJobs_length (enc : Bytes → Bytes) (mem : Mem) (order : List Nat) : 3 * order.length ≤ (order.flatMap (blockJob enc mem)).length := by
  induction order with
  | nil => simp
  | cons b order ih => have := blockJob_length enc mem b; simp only [List.flatMap_cons, List.length_cons, List.length_append]; omega

/-- All lines of a written state. -/
theorem reads_state {enc : Bytes → Bytes} {dc : Bytes → Option Bytes} (hc : Codec enc dc) {st : St} (hfit : Fits st) (empty : Nat → Bool)
    {next : Nat} (hn : next ≤ maxUint64) {order : List Nat} (ho : ∀ b ∈ order, b < maxBlockCount) :
    ∃ cur, Reads dc (Loaded.PartOf st next order) (3 * order.length + (st.nalloc + 6)) {} (-1) (stateBytes enc empty st next order)
      (.withBlocks st next order.reverse) cur [] := by
  obtain ⟨cur, h3⟩ := reads_blocks hc (st := st) (next := next) order [] order [] (-1) rfl ho
  have h1 : Loaded.withAllocs st next st.nalloc = .withBlocks st next [] := by simp [Loaded.withBlocks, Loaded.withAllocs, Loaded.header]
  have h0 : Loaded.header st next = .withAllocs st next 0 := by simp [Loaded.withAllocs, Loaded.header]
  rw [List.append_nil, List.append_nil, ← h1] at h3
  have h2 := reads_allocs (dc := dc) hfit (next := next) (empty := empty) order (order.flatMap (blockJob enc st.mem)) st.nalloc 0 (by omega)
  have h4 := reads_header (dc := dc) hfit hn order ((List.range st.nalloc).flatMap (allocatorBytes st empty) ++ order.flatMap (blockJob enc st.mem))
  rw [← List.range_eq_range', ← h0] at h2
  refine ⟨cur, ?_⟩
  rw [stateBytes, List.append_assoc]
  exact (h4.trans h2).trans h3

theorem loadState_bytes {enc : Bytes → Bytes} {dc : Bytes → Option Bytes} (hc : Codec enc dc) {st : St} (hfit : Fits st) (empty : Nat → Bool)
    {next : Nat} (hn : next ≤ maxUint64) {order : List Nat} (ho : ∀ b ∈ order, b < maxBlockCount) :
    loadState dc (stateBytes enc empty st next order) = .ok (.withBlocks st next order.reverse) := by
  have hf : ∃ f, (stateBytes enc empty st next order).length + 1 = f + 1 + (3 * order.length + (st.nalloc + 6)) := by
    have h1 : 6 ≤ (headerBytes st next).length := by simp [headerBytes, txt]
    have h2 := flatMap_length_ge (allocatorBytes st empty) (allocatorBytes_pos st empty) (List.range st.nalloc)
    have h3 := blockJobs_length enc st.mem order
    rw [List.length_range] at h2
    refine ⟨(stateBytes enc empty st next order).length - (3 * order.length + st.nalloc + 6), ?_⟩
    simp only [stateBytes, List.length_append]
    omega
  obtain ⟨f, hf⟩ := hf
  obtain ⟨cur, h⟩ := reads_state hc hfit empty hn ho
  unfold loadState
  rw [hf, h.loop, loadLoop]
  simp [readLine]

/-- If the header has the number of blocks in use and all of them are written, loading gives the state back. -/
theorem start_restore {st : St} {order : List Nat} (ho : ∀ b, b ∈ order ↔ b < st.nextFreeBlock) :
    (Loaded.withBlocks st st.nextFreeBlock order.reverse).start = some st.restore := by
  have hb : ∀ b, (Loaded.withBlocks st st.nextFreeBlock order.reverse).blocks b = if b < st.nextFreeBlock then some (blockBytes st.mem b) else none := by
    intro b
    simp only [Loaded.withBlocks, List.mem_reverse, ho]
  have hm : (Loaded.withBlocks st st.nextFreeBlock order.reverse).mem = fun a => if a / blockSlots < st.nextFreeBlock then st.mem a else 0 := by
    funext a
    unfold Loaded.mem
    rw [hb]
    by_cases h : a / blockSlots < st.nextFreeBlock
    · rw [if_pos h, if_pos h]
      simp only
      rw [blockWord_bytes _ _ _ (Nat.mod_lt _ (by decide))]
      congr 1
      rw [Nat.mul_comm]; exact Nat.div_add_mod a blockSlots
    · rw [if_neg h, if_neg h]
  unfold Loaded.start
  have he : (Loaded.withBlocks st st.nextFreeBlock order.reverse).epoch = some st.epoch := rfl
  rw [he]
  simp only
  have hall : ((List.range (Loaded.withBlocks st st.nextFreeBlock order.reverse).next).all
      fun b => ((Loaded.withBlocks st st.nextFreeBlock order.reverse).blocks b).isSome) = true := by
    rw [List.all_eq_true]
    intro b hb'
    have hlt : b < st.nextFreeBlock := List.mem_range.1 hb'
    rw [hb, if_pos hlt]
    rfl
  rw [if_pos hall, hm]
  simp [St.restore, Loaded.withBlocks, Loaded.withAllocs, Loaded.header]

end Radix
