import Verif.Core
import Verif.Model.Delete
/-!
# Building the new nodes of `Finalize`
-/
namespace Radix
open T

theorem sumB_zero : sumB (fun _ => 0) = 0 := by
  unfold sumB
  generalize allBytes = l
  induction l with
  | nil => rfl
  | cons b l ih => simpa using ih

theorem sumB_single (c : UInt8) (v : Nat) : sumB (upd (fun _ => 0) c v) = v := by
  have := sumB_upd (fun _ => 0) c v
  rw [sumB_zero] at this
  omega

theorem sumB_cover_upd (ch : UInt8 → T) (c : UInt8) (t : T) (x : Nat) :
    sumB (fun d => (upd ch c t d).cover x) + (ch c).cover x = sumB (fun d => (ch d).cover x) + t.cover x := by
  have h := sumB_upd (fun d => (ch d).cover x) c (t.cover x)
  have e : (fun d => (upd ch c t d).cover x) = upd (fun d => (ch d).cover x) c (t.cover x) := by
    funext d
    by_cases hd : d = c
    · subst hd; simp
    · simp [upd_of_ne _ _ hd]
  rw [e]
  exact h

theorem sumB_ch2 {a b : UInt8} {ta tb : T} (h : a ≠ b) (x : Nat) :
    sumB (fun c => (ch2 a ta b tb c).cover x) = ta.cover x + tb.cover x := by
  unfold ch2
  have h1 := sumB_cover_upd (upd (fun _ => T.empty) a ta) b tb x
  have h2 := sumB_cover_upd (fun _ => T.empty) a ta x
  have h3 : sumB (fun _ : UInt8 => T.empty.cover x) = 0 := sumB_zero
  rw [upd_of_ne _ _ (Ne.symm h)] at h1
  have e : T.empty.cover x = 0 := rfl
  simp only [e] at *
  omega

theorem cover_node_eq (a pfx big ch) (x : Nat) :
    (T.node a pfx big ch).cover x = seg a (nodeSize pfx big ch) x + sumB fun c => (ch c).cover x := rfl

theorem ch2_forall {Q : UInt8 → T → Prop} {a b : UInt8} {ta tb : T} (h : a ≠ b) (ha : Q a ta) (hb : Q b tb)
    (he : ∀ c, Q c .empty) (c : UInt8) : Q c (ch2 a ta b tb c) := by
  by_cases h1 : c = b
  · subst h1; rw [ch2_snd]; exact hb
  · by_cases h2 : c = a
    · subst h2; rw [ch2_fst h]; exact ha
    · rw [ch2_other h2 h1]; exact he c

theorem ch2_exists {Q : UInt8 → T → Prop} {a b : UInt8} {ta tb : T} (h : a ≠ b) (he : ∀ c, ¬ Q c .empty) :
    (∃ c, Q c (ch2 a ta b tb c)) ↔ Q a ta ∨ Q b tb := by
  constructor
  · rintro ⟨c, hc⟩
    by_cases h1 : c = b
    · subst h1; rw [ch2_snd] at hc; exact .inr hc
    · by_cases h2 : c = a
      · subst h2; rw [ch2_fst h] at hc; exact .inl hc
      · rw [ch2_other h2 h1] at hc; exact absurd hc (he c)
  · rintro (h1 | h1)
    · exact ⟨a, by rw [ch2_fst h]; exact h1⟩
    · exact ⟨b, by rw [ch2_snd]; exact h1⟩

/-- `addSortedChildren` on the words of two subtrees. -/
theorem addSorted_spec {n : Nat} {m : Mem} {data : Slice} {a b : UInt8} {ta tb : T} (hn : n ≤ maxBlockCount)
    (hta : ta.InBlocks n) (htb : tb.InBlocks n) (hea : ta.isEmpty = false) (heb : tb.isEmpty = false) (hab : a ≠ b)
    (hl : 2 ≤ data.len) :
    ∃ m', addSortedChildren m data (wordOf a ta) (wordOf b tb) = .ok m' ∧
      (∀ x, (x < data.base ∨ data.base + 2 ≤ x) → m' x = m x) ∧
      readWords m' data.base (cntOf (present (ch2 a ta b tb))) = kidWords (ch2 a ta b tb) := by
  unfold addSortedChildren
  rw [keyByte_wordOf hn hta hea, keyByte_wordOf hn htb heb, cntOf_ch2 hea heb hab]
  have key : ∀ w1 w2, (do let m ← data.set m 0 w1; data.set m 1 w2) =
      (.ok (upd (upd m (data.base + 0) w1) (data.base + 1) w2) : Res Mem) := by
    intro w1 w2
    unfold Slice.set
    rw [if_pos (by omega)]
    simp only [bind, Except.bind]
    rw [if_pos (by omega)]
  have rd : ∀ w1 w2, readWords (upd (upd m (data.base + 0) w1) (data.base + 1) w2) data.base 2 = [w1, w2] := by
    intro w1 w2
    have e1 : upd (upd m (data.base + 0) w1) (data.base + 1) w2 (data.base + 0) = w1 := by
      rw [upd_of_ne _ _ (by omega), upd_same]
    have e2 : upd (upd m (data.base + 0) w1) (data.base + 1) w2 (data.base + 1) = w2 := upd_same _ _ _
    simp only [readWords, List.range_succ, List.range_zero, List.nil_append, List.cons_append, List.map_cons,
      List.map_nil, e1, e2]
  have out : ∀ w1 w2 x, (x < data.base ∨ data.base + 2 ≤ x) →
      upd (upd m (data.base + 0) w1) (data.base + 1) w2 x = m x := by
    intro w1 w2 x hx
    rw [upd_of_ne _ _ (by omega), upd_of_ne _ _ (by omega)]
  rcases UInt8.lt_or_lt_of_ne hab with h | h
  · rw [if_pos h]
    refine ⟨_, key _ _, out _ _, ?_⟩
    rw [rd, (kidWords_ch2_lt hea heb h).2]
  · rw [if_neg (UInt8.lt_asymm h)]
    refine ⟨_, key _ _, out _ _, ?_⟩
    rw [rd, (kidWords_ch2_gt hea heb h).2]

theorem nodeSize_ch2 {pfx : List UInt8} {a b : UInt8} {ta tb : T} (hea : ta.isEmpty = false) (heb : tb.isEmpty = false)
    (hab : a ≠ b) : nodeSize pfx false (ch2 a ta b tb) = 2 + prefixSlots pfx.length := by
  unfold nodeSize cnt
  rw [if_neg (by simp), cntOf_ch2 hea heb hab]

theorem seg_pos_iff {n t x : Nat} : 0 < seg n t x ↔ n ≤ x ∧ x < n + t := by
  unfold seg; split <;> simp_all

/-- Allocating and filling a node with two children. -/
theorem build2_spec {P st t N a} {pfx : List UInt8} {ba bb : UInt8} {ta tb : T} (hc : CoreN P st t N)
    (ha : a < st.nalloc) (hp : pfx.length < maxKeyLen) (hea : ta.isEmpty = false) (heb : tb.isEmpty = false)
    (hab : ba ≠ bb) (hta : ta.InBlocks st.baNext) (htb : tb.InBlocks st.baNext)
    (hra : ta.Repr st.mem) (hrb : tb.Repr st.mem)
    (hca : ∀ x, 0 < ta.cover x → 0 < t.cover x + N x) (hcb : ∀ x, 0 < tb.cover x → 0 < t.cover x + N x) :
    st.allocNodeP a 2 pfx = .error .noBlocks ∨
    ∃ n st1 m, st.allocNodeP a 2 pfx = .ok (n, ⟨n + prefixSlots pfx.length,
        blockSlots - n % blockSlots - prefixSlots pfx.length⟩, st1) ∧
      addSortedChildren st1.mem ⟨n + prefixSlots pfx.length, blockSlots - n % blockSlots - prefixSlots pfx.length⟩
        (wordOf ba ta) (wordOf bb tb) = .ok m ∧
      AllocEff a st { st1 with mem := m } N (fun x => N x + seg n (2 + prefixSlots pfx.length) x) ∧
      (T.node n pfx false (ch2 ba ta bb tb)).Repr m ∧
      (T.node n pfx false (ch2 ba ta bb tb)).InBlocks st1.baNext := by
  rcases allocNodeP_spec hc ha (Nat.le_refl 2) (by omega) hp with h | ⟨n, st1, h, heffN, hpos, hpm⟩
  · exact .inl h
  right
  have heff := heffN N hc.n0
  have heff0 := heffN (fun _ => 0) rfl
  have hc1 := heff.core hc
  have hfit := hpos.fit
  obtain ⟨m, e1, e2, e3⟩ := addSorted_spec (m := st1.mem)
    (data := ⟨n + prefixSlots pfx.length, blockSlots - n % blockSlots - prefixSlots pfx.length⟩) hc1.bn
    (hta.mono heff.baNext) (htb.mono heff.baNext) hea heb hab (by simp only; omega)
  have hframe : ∀ x, seg n (2 + prefixSlots pfx.length) x = 0 → m x = st1.mem x := by
    intro x hx
    apply e2
    have : ¬ (n ≤ x ∧ x < n + (2 + prefixSlots pfx.length)) := by
      rw [← seg_pos_iff]; omega
    simp only
    omega
  have hkeep : ∀ x, 0 < t.cover x + N x → m x = st.mem x := by
    intro x hx
    have h1 := hc.sep x
    have h2 := hc1.sep x
    have h3 := heff.cov x
    have h4 := freeP_le (availNow st) st x
    rw [hframe x (by omega)]
    exact heff0.mem x (by omega)
  refine ⟨n, st1, m, h, e1, ?_, ⟨?_, ?_⟩, ⟨?_, ?_⟩⟩
  · exact heff.fill hframe
  · rw [nodeMem_small_iff]
    refine ⟨hpm.congr ?_, e3⟩
    intro x h1 h2
    exact e2 x (.inl h2)
  · intro c
    refine ch2_forall (Q := fun _ t => t.Repr m) hab ?_ ?_ (fun _ => trivial) c
    · exact hra.congr fun x hx => hkeep x (hca x hx)
    · exact hrb.congr fun x hx => hkeep x (hcb x hx)
  · rw [nodeSize_ch2 hea heb hab]
    exact ⟨hpos.pos, hpos.blk, hpos.fit⟩
  · intro c
    exact ch2_forall (Q := fun _ t => t.InBlocks st1.baNext) hab (hta.mono heff.baNext) (htb.mono heff.baNext)
      (fun _ => trivial) c

/-! ## Copies of a node -/

/-- Filling newly allocated memory. -/
theorem build_frame {P st t N a n S st1 m} (hc : CoreN P st t N)
    (heffN : ∀ N : Nat → Nat, N 0 = 0 → AllocEff a st st1 N (fun x => N x + seg n S x))
    (hm : ∀ x, seg n S x = 0 → m x = st1.mem x) :
    AllocEff a st { st1 with mem := m } N (fun x => N x + seg n S x) ∧
    ∀ x, 0 < t.cover x + N x → m x = st.mem x ∧ st1.mem x = st.mem x ∧ seg n S x = 0 := by
  have heff := heffN N hc.n0
  have heff0 := heffN (fun _ => 0) rfl
  have hc1 := heff.core hc
  refine ⟨?_, ?_⟩
  · exact heff.fill hm
  · intro x hx
    have h1 := hc.sep x
    have h2 := hc1.sep x
    have h3 := heff.cov x
    have h4 := freeP_le (availNow st) st x
    have h5 : seg n S x = 0 := by omega
    have h6 := heff0.mem x (by omega)
    exact ⟨(hm x h5).trans h6, h6, h5⟩

theorem seg_eq_zero {n S x : Nat} (h : x < n ∨ n + S ≤ x) : seg n S x = 0 := by
  unfold seg; rw [if_neg (by omega)]

theorem Slice.copy_eq {m : Mem} {s : Slice} {ws : List Word} (h : ws.length ≤ s.len) :
    s.copy m ws = writeWords m s.base ws := by
  unfold Slice.copy; rw [List.take_of_length_le h]

theorem cover_node_pos {addr pfx big ch} {x : Nat} (h1 : addr ≤ x) (h2 : x < addr + nodeSize pfx big ch) :
    0 < (T.node addr pfx big ch).cover x := by
  rw [cover_node_eq]
  have : 0 < seg addr (nodeSize pfx big ch) x := seg_pos_iff.2 ⟨h1, h2⟩
  omega

theorem cnt_ge {P p addr pfx big ch} (h : (T.node addr pfx big ch).WF P p) : 2 ≤ cnt big ch := by
  unfold cnt
  split
  · omega
  · exact (h.2.1 (by simp_all)).1

/-- Allocating a copy of a node with another prefix. -/
theorem clone_spec {P st t N a addr pfx pfx' big ch} (hc : CoreN P st t N) (ha : a < st.nalloc)
    (hp : pfx'.length < maxKeyLen) (hcnt : 2 ≤ cnt big ch) (hin : (T.node addr pfx big ch).InBlocks st.baNext)
    (hr : (T.node addr pfx big ch).Repr st.mem)
    (hcov : ∀ x, 0 < (T.node addr pfx big ch).cover x → 0 < t.cover x + N x) :
    st.allocNodeP a (cnt big ch) pfx' = .error .noBlocks ∨
    ∃ n st1 m ws, st.allocNodeP a (cnt big ch) pfx' = .ok (n, ⟨n + prefixSlots pfx'.length,
        blockSlots - n % blockSlots - prefixSlots pfx'.length⟩, st1) ∧
      (⟨addr, blockSlots - addr % blockSlots⟩ : Slice).drop (prefixSlots pfx.length) =
        .ok ⟨addr + prefixSlots pfx.length, blockSlots - addr % blockSlots - prefixSlots pfx.length⟩ ∧
      Slice.words st1.mem ⟨addr + prefixSlots pfx.length, blockSlots - addr % blockSlots - prefixSlots pfx.length⟩
        (cnt big ch) = .ok ws ∧
      Slice.copy st1.mem ⟨n + prefixSlots pfx'.length,
        blockSlots - n % blockSlots - prefixSlots pfx'.length⟩ ws = m ∧
      AllocEff a st { st1 with mem := m } N (fun x => N x + seg n (nodeSize pfx' big ch) x) ∧
      (T.node n pfx' big ch).Repr m ∧ (T.node n pfx' big ch).InBlocks st1.baNext := by
  rcases allocNodeP_spec hc ha hcnt (cnt_le _ _) hp with h | ⟨n, st1, h, heffN, hpos, hpm⟩
  · exact .inl h
  right
  have hfit := hpos.fit
  have hfit' := hin.1.2.2
  have hsz : nodeSize pfx big ch = cnt big ch + prefixSlots pfx.length := rfl
  refine ⟨n, st1, _, readWords st.mem (addr + prefixSlots pfx.length) (cnt big ch), h, ?_, ?_, rfl, ?_⟩
  · unfold Slice.drop; rw [if_pos (by simp only; omega)]
  · unfold Slice.words
    rw [if_pos (by simp only; omega)]
    congr 1
    apply readWords_congr
    intro i hi
    refine ((build_frame (m := st1.mem) hc heffN (fun _ _ => rfl)).2 _ (hcov _ ?_)).1
    exact cover_node_pos (by simp only; omega) (by simp only; omega)
  rw [Slice.copy_eq (by rw [length_readWords]; simp only; omega)]
  have hm : ∀ x, seg n (cnt big ch + prefixSlots pfx'.length) x = 0 →
      writeWords st1.mem (n + prefixSlots pfx'.length) (readWords st.mem (addr + prefixSlots pfx.length) (cnt big ch)) x =
        st1.mem x := by
    intro x hx
    apply writeWords_outside
    rw [length_readWords]
    have : ¬ (n ≤ x ∧ x < n + (cnt big ch + prefixSlots pfx'.length)) := by
      rw [← seg_pos_iff]; omega
    omega
  obtain ⟨he, hk⟩ := build_frame hc heffN hm
  refine ⟨he, ⟨?_, ?_⟩, ⟨⟨hpos.pos, hpos.blk, hpos.fit⟩, ?_⟩⟩
  · refine hr.1.clone (hpm.congr ?_) ?_
    · intro x h1 h2
      exact writeWords_outside (by simp only; omega)
    · intro i hi
      rw [writeWords_at (by rw [length_readWords]; exact hi), getElem_readWords]
  · intro c
    refine (hr.2 c).congr fun x hx => (hk x (hcov x ?_)).1
    exact Nat.lt_of_lt_of_le hx (cover_child_le c x)
  · intro c
    exact (hin.2 c).mono (heffN _ hc.n0).baNext

theorem writeWords_append {l1 l2 : List Word} : ∀ {m : Mem} {b : Nat},
    writeWords m b (l1 ++ l2) = writeWords (writeWords m b l1) (b + l1.length) l2 := by
  induction l1 with
  | nil => intro m b; simp [writeWords]
  | cons w l1 ih =>
    intro m b
    simp only [List.cons_append, writeWords, List.length_cons]
    rw [ih]
    congr 1
    omega

theorem kidWords_insert {ch : UInt8 → T} {k : UInt8} {t : T} (hk : (ch k).isEmpty = true) (ht : t.isEmpty = false) :
    kidWords (upd ch k t) = (kidWords ch).take (rankOf (present ch) k) ++
      wordOf k t :: (kidWords ch).drop (rankOf (present ch) k) := by
  unfold kidWords
  rw [kidsOf_insert (f := present ch) (g := present (upd ch k t)) (k := k)]
  · simp only [List.map_append, List.map_cons, upd_same, List.map_take, List.map_drop]
    have : ∀ c ∈ kidsOf (present ch), wordOf c (upd ch k t c) = wordOf c (ch c) := by
      intro c hc
      have : c ≠ k := by
        rintro rfl
        have := mem_kidsOf.1 hc
        simp [present, hk] at this
      rw [upd_of_ne _ _ this]
    rw [List.map_congr_left this]
  · simp [present, hk]
  · simp [present, ht]
  · intro b hb
    simp [present, upd_of_ne _ _ hb]

theorem kidWords_erase {ch : UInt8 → T} {k : UInt8} (hk : (ch k).isEmpty = false) :
    kidWords (upd ch k .empty) = (kidWords ch).take (rankOf (present ch) k) ++
      (kidWords ch).drop (rankOf (present ch) k + 1) := by
  unfold kidWords
  have hkk : k ∉ kidsOf (present (upd ch k .empty)) := by
    intro h
    have := mem_kidsOf.1 h
    simp [present] at this
  have e := kidsOf_erase (f := present ch) (g := present (upd ch k .empty)) (k := k) (by simp [present, hk])
    (by simp [present]) (fun b hb => by simp [present, upd_of_ne _ _ hb])
  rw [← List.map_take, ← List.map_drop, ← List.map_append, ← e]
  apply List.map_congr_left
  intro c hc
  have : c ≠ k := by rintro rfl; exact hkk hc
  rw [upd_of_ne _ _ this]

theorem cntOf_upd_insert {ch : UInt8 → T} {k : UInt8} {t : T} (hk : (ch k).isEmpty = true) (ht : t.isEmpty = false) :
    cntOf (present (upd ch k t)) = cntOf (present ch) + 1 :=
  cntOf_insert (k := k) (by simp [present, hk]) (by simp [present, ht])
    (fun b hb => by simp [present, upd_of_ne _ _ hb])

theorem cntOf_upd_erase {ch : UInt8 → T} {k : UInt8} (hk : (ch k).isEmpty = false) :
    cntOf (present (upd ch k .empty)) + 1 = cntOf (present ch) :=
  cntOf_erase (k := k) (by simp [present, hk]) (by simp [present])
    (fun b hb => by simp [present, upd_of_ne _ _ hb])

/-- A node read back from consecutive words: the prefix words followed by the child words. -/
theorem nodeMem_of_words {m m' : Mem} {a n : Nat} {pfx : List UInt8} {ch : UInt8 → T} (hp : PrefixMem m a pfx)
    (h : ∃ m0, m' = writeWords m0 n (readWords m a (prefixSlots pfx.length) ++ kidWords ch)) :
    NodeMem m' n pfx false ch := by
  obtain ⟨m0, rfl⟩ := h
  rw [nodeMem_small_iff]
  refine ⟨hp.shift ?_, ?_⟩
  · intro j hj
    rw [writeWords_at (by rw [List.length_append, length_readWords]; omega),
      List.getElem_append_left (by rw [length_readWords]; exact hj), getElem_readWords]
  · rw [writeWords_append, length_readWords, ← length_kidWords]
    exact readWords_writeWords

theorem readWords_split {m : Mem} {a ps i c : Nat} {ws : List Word} (h : readWords m (a + ps) c = ws) (hi : i ≤ c) :
    readWords m a (ps + i) = readWords m a ps ++ ws.take i ∧ readWords m (a + (ps + i)) (c - i) = ws.drop i := by
  have e : ws = readWords m (a + ps) i ++ readWords m (a + ps + i) (c - i) := by
    rw [← readWords_append, ← h]
    congr 1
    omega
  refine ⟨?_, ?_⟩
  · rw [readWords_append, e, List.take_append_of_le_length (by rw [length_readWords]; exact Nat.le_refl _),
      List.take_of_length_le (by rw [length_readWords]; exact Nat.le_refl _)]
  · rw [e, ← Nat.add_assoc]
    rw [List.drop_append_of_le_length (by rw [length_readWords]; exact Nat.le_refl _),
      List.drop_of_length_le (by rw [length_readWords]; exact Nat.le_refl _)]
    simp

/-- `nodeLeafInsert` into a node that stays variable sized: the statements between allocation and publication. -/
theorem insert_spec {P st t N a addr pfx ch k tk} (hc : CoreN P st t N) (ha : a < st.nalloc)
    (hp : pfx.length < maxKeyLen) (hcnt : 2 ≤ cntOf (present ch)) (hcnt' : cntOf (present ch) < 127)
    (hin : (T.node addr pfx false ch).InBlocks st.baNext)
    (hr : (T.node addr pfx false ch).Repr st.mem)
    (hcov : ∀ x, 0 < (T.node addr pfx false ch).cover x → 0 < t.cover x + N x)
    (hk : (ch k).isEmpty = true) (htk : tk.isEmpty = false) (hti : tk.InBlocks 0) :
    st.allocNode a (cntOf (present ch) + 1) pfx.length = .error .noBlocks ∨
    ∃ n st1 m, st.allocNode a (cntOf (present ch) + 1) pfx.length = .ok (n, ⟨n, blockSlots - n % blockSlots⟩, st1) ∧
      (do let ws1 ← Slice.words st1.mem ⟨addr, blockSlots - addr % blockSlots⟩
            (prefixSlots pfx.length + rankOf (present ch) k)
          let m := Slice.copy st1.mem ⟨n, blockSlots - n % blockSlots⟩ ws1
          let m ← Slice.set m ⟨n, blockSlots - n % blockSlots⟩ (prefixSlots pfx.length + rankOf (present ch) k)
            (wordOf k tk)
          let l := cntOf (present ch) - rankOf (present ch) k
          let src2 ← (⟨addr, blockSlots - addr % blockSlots⟩ : Slice).drop
            (prefixSlots pfx.length + rankOf (present ch) k)
          let ws2 ← src2.words m l
          let dst2 ← (⟨n, blockSlots - n % blockSlots⟩ : Slice).drop
            (prefixSlots pfx.length + rankOf (present ch) k + 1)
          return dst2.copy m ws2 : Res Mem) = .ok m ∧
      AllocEff a st { st1 with mem := m } N (fun x => N x + seg n (nodeSize pfx false (upd ch k tk)) x) ∧
      (T.node n pfx false (upd ch k tk)).Repr m ∧ (T.node n pfx false (upd ch k tk)).InBlocks st1.baNext := by
  rcases allocNode_spec (count := cntOf (present ch) + 1) (plen := pfx.length) hc ha (by omega) (by omega) hp with
    h | ⟨n, st1, h, heffN, hpos⟩
  · exact .inl h
  right
  have hfit := hpos.fit
  have hfit' := hin.1.2.2
  have hsz : nodeSize pfx false ch = cntOf (present ch) + prefixSlots pfx.length := rfl
  have hrk := rankOf_le (present ch) k
  have hsz' : nodeSize pfx false (upd ch k tk) = cntOf (present ch) + 1 + prefixSlots pfx.length := by
    show cntOf (present (upd ch k tk)) + _ = _
    rw [cntOf_upd_insert hk htk]
  have hold : ∀ x, addr ≤ x → x < addr + nodeSize pfx false ch →
      st1.mem x = st.mem x ∧ seg n (cntOf (present ch) + 1 + prefixSlots pfx.length) x = 0 := by
    intro x h1 h2
    exact ((build_frame (m := st1.mem) hc heffN (fun _ _ => rfl)).2 x (hcov x (cover_node_pos h1 h2))).2
  obtain ⟨hpm, hkw⟩ := nodeMem_small_iff.1 hr.1
  have hsp := readWords_split hkw hrk
  -- the words read
  have r1 : readWords st1.mem addr (prefixSlots pfx.length + rankOf (present ch) k) =
      readWords st.mem addr (prefixSlots pfx.length) ++ (kidWords ch).take (rankOf (present ch) k) := by
    rw [← hsp.1]
    exact readWords_congr fun i hi => (hold _ (by omega) (by omega)).1
  generalize hw1 : readWords st.mem addr (prefixSlots pfx.length) ++ (kidWords ch).take (rankOf (present ch) k) = ws1 at *
  have hl1 : ws1.length = prefixSlots pfx.length + rankOf (present ch) k := by rw [← r1, length_readWords]
  have e2 : upd (writeWords st1.mem n ws1) (n + (prefixSlots pfx.length + rankOf (present ch) k)) (wordOf k tk) =
      writeWords st1.mem n (ws1 ++ [wordOf k tk]) := by
    rw [writeWords_append, hl1]; rfl
  have r2 : readWords (writeWords st1.mem n (ws1 ++ [wordOf k tk]))
      (addr + (prefixSlots pfx.length + rankOf (present ch) k)) (cntOf (present ch) - rankOf (present ch) k) =
      (kidWords ch).drop (rankOf (present ch) k) := by
    rw [← hsp.2]
    apply readWords_congr
    intro i hi
    have := hold (addr + (prefixSlots pfx.length + rankOf (present ch) k) + i) (by omega) (by omega)
    rw [writeWords_outside, this.1]
    have h3 : ¬ (n ≤ addr + (prefixSlots pfx.length + rankOf (present ch) k) + i ∧
        addr + (prefixSlots pfx.length + rankOf (present ch) k) + i <
          n + (cntOf (present ch) + 1 + prefixSlots pfx.length)) := by
      rw [← seg_pos_iff]; omega
    rw [List.length_append, hl1, List.length_singleton]
    omega
  have hlk := length_kidWords ch
  refine ⟨n, st1, writeWords st1.mem n (ws1 ++ [wordOf k tk] ++ (kidWords ch).drop (rankOf (present ch) k)), h, ?_, ?_⟩
  · unfold Slice.words Slice.set Slice.drop
    rw [if_pos (by simp only; omega)]
    simp only [bind, Except.bind, r1]
    rw [if_pos (by omega), Slice.copy_eq (by rw [hl1]; simp only; omega)]
    simp only [e2]
    rw [if_pos (by omega)]
    simp only
    rw [if_pos (by omega)]
    simp only [r2]
    rw [if_pos (by omega)]
    simp only
    rw [Slice.copy_eq (by rw [List.length_drop, hlk]; simp only; omega)]
    simp only [pure, Except.pure]
    rw [writeWords_append (l1 := ws1 ++ [wordOf k tk])]
    simp only [List.length_append, hl1, List.length_singleton]
  rw [hsz']
  have hm : ∀ x, seg n (cntOf (present ch) + 1 + prefixSlots pfx.length) x = 0 →
      writeWords st1.mem n (ws1 ++ [wordOf k tk] ++ (kidWords ch).drop (rankOf (present ch) k)) x = st1.mem x := by
    intro x hx
    apply writeWords_outside
    have : ¬ (n ≤ x ∧ x < n + (cntOf (present ch) + 1 + prefixSlots pfx.length)) := by
      rw [← seg_pos_iff]; omega
    simp only [List.length_append, hl1, List.length_singleton, List.length_drop, hlk]
    omega
  obtain ⟨he, hkeep⟩ := build_frame hc heffN hm
  refine ⟨he, ⟨?_, ?_⟩, ⟨⟨hpos.pos, hpos.blk, by rw [hsz']; exact hpos.fit⟩, ?_⟩⟩
  · apply nodeMem_of_words hpm
    refine ⟨st1.mem, ?_⟩
    rw [kidWords_insert hk htk, ← hw1]
    simp
  · intro c
    by_cases hck : c = k
    · subst hck
      rw [upd_same]
      cases tk with
      | empty => trivial
      | leaf => trivial
      | node => exact absurd hti.1.2.1 (Nat.not_lt_zero _)
    · rw [upd_of_ne _ _ hck]
      refine (hr.2 c).congr fun x hx => (hkeep x (hcov x ?_)).1
      exact Nat.lt_of_lt_of_le hx (cover_child_le c x)
  · intro c
    by_cases hck : c = k
    · subst hck
      rw [upd_same]
      exact hti.mono (Nat.zero_le _)
    · rw [upd_of_ne _ _ hck]
      exact (hin.2 c).mono (heffN _ hc.n0).baNext

theorem spread_spec {w : UInt8 → Word} {dst : Slice} (hl : 256 ≤ dst.len) : ∀ (l : List UInt8) (m : Mem),
    (∀ c ∈ l, keyByte (w c) = c) →
    ∃ m', spread m dst (l.map w) = .ok m' ∧
      (∀ c : UInt8, m' (dst.base + c.toNat) = if c ∈ l then w c else m (dst.base + c.toNat)) ∧
      ∀ x, (x < dst.base ∨ dst.base + 256 ≤ x) → m' x = m x := by
  intro l
  induction l with
  | nil =>
    intro m _
    exact ⟨m, rfl, fun c => by simp, fun _ _ => rfl⟩
  | cons b l ih =>
    intro m hw
    have hb : b.toNat < 256 := b.toNat_lt
    obtain ⟨m', h1, h2, h3⟩ := ih (upd m (dst.base + b.toNat) (w b)) (fun c hc => hw c (by simp [hc]))
    refine ⟨m', ?_, ?_, ?_⟩
    · simp only [List.map_cons, spread, Slice.set, hw b (by simp)]
      rw [if_pos (by omega)]
      exact h1
    · intro c
      rw [h2 c]
      by_cases hc : c ∈ l
      · simp [hc]
      · by_cases hcb : c = b
        · subst hcb; simp [hc]
        · have : c.toNat ≠ b.toNat := fun e => hcb (UInt8.toNat_inj.1 e)
          rw [if_neg hc, if_neg (by simp [hc, hcb]), upd_of_ne _ _ (by omega)]
    · intro x hx
      rw [h3 x hx, upd_of_ne _ _ (by omega)]

/-- `nodeLeafInsert` into a full variable sized node: conversion to a node-256. -/
theorem grow_spec {P st t N a addr pfx ch k tk} (hc : CoreN P st t N) (ha : a < st.nalloc)
    (hp : pfx.length < maxKeyLen)
    (hin : (T.node addr pfx false ch).InBlocks st.baNext)
    (hr : (T.node addr pfx false ch).Repr st.mem)
    (hcov : ∀ x, 0 < (T.node addr pfx false ch).cover x → 0 < t.cover x + N x)
    (hk : (ch k).isEmpty = true) (hti : tk.InBlocks 0) :
    st.allocNodeP a 256 pfx = .error .noBlocks ∨
    ∃ n st1 m, st.allocNodeP a 256 pfx = .ok (n, ⟨n + prefixSlots pfx.length,
        blockSlots - n % blockSlots - prefixSlots pfx.length⟩, st1) ∧
      (do let _ ← Slice.words st1.mem ⟨n + prefixSlots pfx.length,
            blockSlots - n % blockSlots - prefixSlots pfx.length⟩ 256
          let m := writeWords st1.mem (n + prefixSlots pfx.length) (List.replicate 256 0)
          let src ← (⟨addr, blockSlots - addr % blockSlots⟩ : Slice).drop (prefixSlots pfx.length)
          let m ← Slice.set m ⟨n + prefixSlots pfx.length,
            blockSlots - n % blockSlots - prefixSlots pfx.length⟩ k.toNat (wordOf k tk)
          let ws ← src.words m (cntOf (present ch))
          spread m ⟨n + prefixSlots pfx.length, blockSlots - n % blockSlots - prefixSlots pfx.length⟩ ws : Res Mem) =
        .ok m ∧
      AllocEff a st { st1 with mem := m } N (fun x => N x + seg n (nodeSize pfx true (upd ch k tk)) x) ∧
      (T.node n pfx true (upd ch k tk)).Repr m ∧ (T.node n pfx true (upd ch k tk)).InBlocks st1.baNext := by
  rcases allocNodeP_spec hc ha (count := 256) (by omega) (by omega) hp with h | ⟨n, st1, h, heffN, hpos, hpm⟩
  · exact .inl h
  right
  have hfit := hpos.fit
  have hfit' := hin.1.2.2
  have hsz : nodeSize pfx false ch = cntOf (present ch) + prefixSlots pfx.length := rfl
  have hsz' : nodeSize pfx true (upd ch k tk) = 256 + prefixSlots pfx.length := rfl
  have hkl : k.toNat < 256 := k.toNat_lt
  have heff := heffN N hc.n0
  have hbn := (heff.core hc).bn
  have hold : ∀ x, addr ≤ x → x < addr + nodeSize pfx false ch →
      st1.mem x = st.mem x ∧ seg n (256 + prefixSlots pfx.length) x = 0 := by
    intro x h1 h2
    exact ((build_frame (m := st1.mem) hc heffN (fun _ _ => rfl)).2 x (hcov x (cover_node_pos h1 h2))).2
  obtain ⟨_, hkw⟩ := nodeMem_small_iff.1 hr.1
  have hwk : ∀ c ∈ kidsOf (present ch), keyByte (wordOf c (ch c)) = c := by
    intro c hc'
    have hpc := present_eq_true.1 (mem_kidsOf.1 hc')
    exact keyByte_wordOf hbn ((hin.2 c).mono heff.baNext) hpc
  generalize hm1 : upd (writeWords st1.mem (n + prefixSlots pfx.length) (List.replicate 256 0))
    (n + prefixSlots pfx.length + k.toNat) (wordOf k tk) = m1
  have hm1o : ∀ x, (x < n + prefixSlots pfx.length ∨ n + prefixSlots pfx.length + 256 ≤ x) → m1 x = st1.mem x := by
    intro x hx
    rw [← hm1, upd_of_ne _ _ (by omega), writeWords_outside (by rw [List.length_replicate]; exact hx)]
  obtain ⟨m, s1, s2, s3⟩ := spread_spec (w := fun c => wordOf c (ch c)) (dst := ⟨n + prefixSlots pfx.length,
    blockSlots - n % blockSlots - prefixSlots pfx.length⟩) (by simp only; omega) (kidsOf (present ch)) m1 hwk
  have r1 : readWords m1 (addr + prefixSlots pfx.length) (cntOf (present ch)) = kidWords ch := by
    rw [← hkw]
    apply readWords_congr
    intro i hi
    have h1 := hold (addr + prefixSlots pfx.length + i) (by omega) (by omega)
    have h3 : ¬ (n ≤ addr + prefixSlots pfx.length + i ∧
        addr + prefixSlots pfx.length + i < n + (256 + prefixSlots pfx.length)) := by
      rw [← seg_pos_iff]; omega
    rw [hm1o _ (by omega), h1.1]
  have hm : ∀ x, seg n (256 + prefixSlots pfx.length) x = 0 → m x = st1.mem x := by
    intro x hx
    have h3 : ¬ (n ≤ x ∧ x < n + (256 + prefixSlots pfx.length)) := by
      rw [← seg_pos_iff]; omega
    rw [s3 x (by simp only; omega), hm1o x (by omega)]
  obtain ⟨he, hkeep⟩ := build_frame hc heffN hm
  refine ⟨n, st1, m, h, ?_, he, ⟨⟨?_, ?_⟩, ?_⟩, ⟨⟨hpos.pos, hpos.blk, hpos.fit⟩, ?_⟩⟩
  · unfold Slice.words Slice.set Slice.drop
    rw [if_pos (by simp only; omega)]
    simp only [bind, Except.bind]
    rw [if_pos (by omega)]
    simp only
    rw [if_pos (by omega)]
    simp only [hm1]
    rw [if_pos (by omega)]
    simp only [r1]
    exact s1
  · apply hpm.congr
    intro x h1 h2
    rw [s3 x (.inl h2), hm1o x (.inl h2)]
  · intro c _
    unfold childSlot idx
    rw [if_pos rfl]
    have := s2 c
    simp only at this
    rw [this]
    by_cases hck : c = k
    · subst hck
      rw [if_neg (by rw [mem_kidsOf]; simp [present, hk]), ← hm1, upd_same, upd_same]
    · rw [upd_of_ne _ _ hck]
      by_cases hcp : c ∈ kidsOf (present ch)
      · rw [if_pos hcp]
      · rw [if_neg hcp]
        have hce : ch c = .empty := by
          rw [mem_kidsOf] at hcp
          apply isEmpty_eq_true.1
          simpa [present] using hcp
        have hcl : c.toNat < 256 := c.toNat_lt
        have hne : c.toNat ≠ k.toNat := fun e => hck (UInt8.toNat_inj.1 e)
        rw [hce, ← hm1, upd_of_ne _ _ (by omega), writeWords_at (by rw [List.length_replicate]; exact hcl),
          List.getElem_replicate]
        rfl
  · intro c
    by_cases hck : c = k
    · subst hck
      rw [upd_same]
      cases tk with
      | empty => trivial
      | leaf => trivial
      | node => exact absurd hti.1.2.1 (Nat.not_lt_zero _)
    · rw [upd_of_ne _ _ hck]
      refine (hr.2 c).congr fun x hx => (hkeep x (hcov x ?_)).1
      exact Nat.lt_of_lt_of_le hx (cover_child_le c x)
  · intro c
    by_cases hck : c = k
    · subst hck
      rw [upd_same]
      exact hti.mono (Nat.zero_le _)
    · rw [upd_of_ne _ _ hck]
      exact (hin.2 c).mono heff.baNext

/-- `deleteLeaf`: a copy of a variable sized node without one child. -/
theorem shrink_spec {P st t N a addr pfx ch k} (hc : CoreN P st t N) (ha : a < st.nalloc)
    (hp : pfx.length < maxKeyLen) (hcnt : 3 ≤ cntOf (present ch))
    (hin : (T.node addr pfx false ch).InBlocks st.baNext)
    (hr : (T.node addr pfx false ch).Repr st.mem)
    (hcov : ∀ x, 0 < (T.node addr pfx false ch).cover x → 0 < t.cover x + N x)
    (hk : (ch k).isEmpty = false) :
    st.allocNode a (cntOf (present ch) - 1) pfx.length = .error .noBlocks ∨
    ∃ n st1 m, st.allocNode a (cntOf (present ch) - 1) pfx.length = .ok (n, ⟨n, blockSlots - n % blockSlots⟩, st1) ∧
      (do let _ ← Slice.words st1.mem ⟨addr, blockSlots - addr % blockSlots⟩
            (cntOf (present ch) + prefixSlots pfx.length)
          let ws1 ← Slice.words st1.mem ⟨addr, blockSlots - addr % blockSlots⟩
            (prefixSlots pfx.length + rankOf (present ch) k)
          let m := Slice.copy st1.mem ⟨n, blockSlots - n % blockSlots⟩ ws1
          let src2 ← (⟨addr, blockSlots - addr % blockSlots⟩ : Slice).drop
            (prefixSlots pfx.length + rankOf (present ch) k + 1)
          let ws2 ← src2.words m (cntOf (present ch) + prefixSlots pfx.length -
            (prefixSlots pfx.length + rankOf (present ch) k + 1))
          let dst2 ← (⟨n, blockSlots - n % blockSlots⟩ : Slice).drop
            (prefixSlots pfx.length + rankOf (present ch) k)
          return dst2.copy m ws2 : Res Mem) = .ok m ∧
      AllocEff a st { st1 with mem := m } N (fun x => N x + seg n (nodeSize pfx false (upd ch k .empty)) x) ∧
      (T.node n pfx false (upd ch k .empty)).Repr m ∧
      (T.node n pfx false (upd ch k .empty)).InBlocks st1.baNext := by
  have hcle := cntOf_le (present ch)
  rcases allocNode_spec (count := cntOf (present ch) - 1) (plen := pfx.length) hc ha (by omega) (by omega) hp with
    h | ⟨n, st1, h, heffN, hpos⟩
  · exact .inl h
  right
  have hfit := hpos.fit
  have hfit' := hin.1.2.2
  have hsz : nodeSize pfx false ch = cntOf (present ch) + prefixSlots pfx.length := rfl
  have hrk := rankOf_lt (present_eq_true.2 hk)
  have hsz' : nodeSize pfx false (upd ch k .empty) = cntOf (present ch) - 1 + prefixSlots pfx.length := by
    show cntOf (present (upd ch k .empty)) + _ = _
    rw [← cntOf_upd_erase hk, Nat.add_sub_cancel]
  have hold : ∀ x, addr ≤ x → x < addr + nodeSize pfx false ch →
      st1.mem x = st.mem x ∧ seg n (cntOf (present ch) - 1 + prefixSlots pfx.length) x = 0 := by
    intro x h1 h2
    exact ((build_frame (m := st1.mem) hc heffN (fun _ _ => rfl)).2 x (hcov x (cover_node_pos h1 h2))).2
  obtain ⟨hpm, hkw⟩ := nodeMem_small_iff.1 hr.1
  have hsp := readWords_split hkw (Nat.le_of_lt hrk)
  have hsp2 := readWords_split hkw hrk
  have r1 : readWords st1.mem addr (prefixSlots pfx.length + rankOf (present ch) k) =
      readWords st.mem addr (prefixSlots pfx.length) ++ (kidWords ch).take (rankOf (present ch) k) := by
    rw [← hsp.1]
    exact readWords_congr fun i hi => (hold _ (by omega) (by omega)).1
  generalize hw1 : readWords st.mem addr (prefixSlots pfx.length) ++ (kidWords ch).take (rankOf (present ch) k) = ws1 at *
  have hl1 : ws1.length = prefixSlots pfx.length + rankOf (present ch) k := by rw [← r1, length_readWords]
  have r2 : readWords (writeWords st1.mem n ws1)
      (addr + (prefixSlots pfx.length + rankOf (present ch) k + 1))
      (cntOf (present ch) + prefixSlots pfx.length - (prefixSlots pfx.length + rankOf (present ch) k + 1)) =
      (kidWords ch).drop (rankOf (present ch) k + 1) := by
    rw [← hsp2.2]
    have e : cntOf (present ch) + prefixSlots pfx.length - (prefixSlots pfx.length + rankOf (present ch) k + 1) =
      cntOf (present ch) - Nat.succ (rankOf (present ch) k) := by omega
    rw [e]
    apply readWords_congr
    intro i hi
    have := hold (addr + (prefixSlots pfx.length + rankOf (present ch) k + 1) + i) (by omega) (by omega)
    rw [writeWords_outside, this.1]
    · rfl
    · have h3 : ¬ (n ≤ addr + (prefixSlots pfx.length + rankOf (present ch) k + 1) + i ∧
          addr + (prefixSlots pfx.length + rankOf (present ch) k + 1) + i <
            n + (cntOf (present ch) - 1 + prefixSlots pfx.length)) := by
        rw [← seg_pos_iff]; omega
      rw [hl1]
      omega
  have hlk := length_kidWords ch
  refine ⟨n, st1, writeWords st1.mem n (ws1 ++ (kidWords ch).drop (rankOf (present ch) k + 1)), h, ?_, ?_⟩
  · unfold Slice.words Slice.drop
    rw [if_pos (by simp only; omega)]
    simp only [bind, Except.bind]
    rw [if_pos (by omega)]
    simp only [r1]
    rw [Slice.copy_eq (by rw [hl1]; simp only; omega), if_pos (by omega)]
    simp only
    rw [if_pos (by omega)]
    simp only [r2]
    rw [if_pos (by omega)]
    simp only
    rw [Slice.copy_eq (by rw [List.length_drop, hlk]; simp only; omega)]
    simp only [pure, Except.pure]
    rw [writeWords_append, hl1]
  rw [hsz']
  have hm : ∀ x, seg n (cntOf (present ch) - 1 + prefixSlots pfx.length) x = 0 →
      writeWords st1.mem n (ws1 ++ (kidWords ch).drop (rankOf (present ch) k + 1)) x = st1.mem x := by
    intro x hx
    apply writeWords_outside
    have : ¬ (n ≤ x ∧ x < n + (cntOf (present ch) - 1 + prefixSlots pfx.length)) := by
      rw [← seg_pos_iff]; omega
    simp only [List.length_append, hl1, List.length_drop, hlk]
    omega
  obtain ⟨he, hkeep⟩ := build_frame hc heffN hm
  refine ⟨he, ⟨?_, ?_⟩, ⟨⟨hpos.pos, hpos.blk, by rw [hsz']; exact hpos.fit⟩, ?_⟩⟩
  · apply nodeMem_of_words hpm
    refine ⟨st1.mem, ?_⟩
    rw [kidWords_erase hk, ← hw1]
    simp
  · intro c
    by_cases hck : c = k
    · subst hck
      rw [upd_same]
      trivial
    · rw [upd_of_ne _ _ hck]
      refine (hr.2 c).congr fun x hx => (hkeep x (hcov x ?_)).1
      exact Nat.lt_of_lt_of_le hx (cover_child_le c x)
  · intro c
    by_cases hck : c = k
    · subst hck
      rw [upd_same]
      trivial
    · rw [upd_of_ne _ _ hck]
      exact (hin.2 c).mono (heffN _ hc.n0).baNext

end Radix
