import Verif.Model.Debug
import Verif.Properties.Walk
/-!
# Property C53: the debug commands `root` and `node`

`Listed st w p`: somebody who calls `Admin("root")` and then `Admin("node", id)` for ids printed before (in one state) finds the word `w`
printed, and the prefixes and bytes printed on the way to it make up `p`.
-/
set_option autoImplicit false
namespace Radix
variable {env : Env} {s : Sys} {σ : Spec}

/-- The words found by following what is printed for the root, for the lines of the root, and so on. -/
inductive Listed (st : St) : Word → Key → Prop
  | root {out : Printed} : adminRoot st = .ok out → out ≠ .empty → Listed st st.root []
  | line {w a : Word} {p pfx : List UInt8} {lines : List Word} : Listed st w p → debugPrintNode st w = .ok (.node w pfx lines) → a ∈ lines →
      a ≠ 0 → Listed st a (p ++ pfx ++ [keyByte a])

/-- What is printed for a word listed at `p`: a leaf stands for the only stored key which starts with `p`; a node has its lines in order of
the bytes, and every stored key which starts with `p` goes on with the prefix of the node and the byte of one of the lines. -/
def Shows (M : Map) (w : Word) (p : Key) : Printed → Prop
  | .leaf raw => raw = w ∧ ∃ key, p <+: key ∧ M key = some (leafValue w) ∧ ∀ k v, M k = some v → p <+: k → k = key
  | .node raw pfx lines => raw = w ∧ (lines.filter (· ≠ 0)).Pairwise (fun a b => keyByte a < keyByte b) ∧
      ∀ k v, M k = some v → p <+: k → ∃ a ∈ lines, a ≠ 0 ∧ p ++ pfx ++ [keyByte a] <+: k
  | _ => False

theorem rootWord_wordOf (t : T) : ∃ b, rootWord t = wordOf b t := by
  cases t with
  | empty => exact ⟨0, rfl⟩
  | leaf k v => exact ⟨k.headD 0, rfl⟩
  | node => exact ⟨0, rfl⟩

/-- The subtree behind a listed word. -/
structure Sub (env : Env) (s : Sys) (σ : Spec) (w : Word) (p : Key) (b : UInt8) (t : T) : Prop where
  word : w = wordOf b t
  ne : t.isEmpty = false
  wf : t.WF env.P p
  inb : t.InBlocks s.st.baNext
  repr : t.Repr s.st.mem
  nb : s.st.nblocks ≤ maxBlockCount
  has : ∀ k v, t.Has k v ↔ σ.map k = some v ∧ p <+: k

theorem Sub.root (h : Run env Calm s σ) (hr : s.st.root ≠ 0) : ∃ b t, Sub env s σ s.st.root [] b t := by
  obtain ⟨t, seen, hI⟩ := h.inv
  obtain ⟨b, e⟩ := rootWord_wordOf t
  have hc := hI.mem.core
  refine ⟨b, t, hc.root.trans e, ?_, hc.wf, hc.inb, hc.repr, hc.nb, fun k v => ?_⟩
  · rw [← Bool.not_eq_true]
    intro h0
    refine hr ?_
    rw [hc.root, e]
    exact (wordOf_eq_zero (Nat.le_trans s.st.baNext_le hc.nb) hc.inb).2 h0
  · simpa using hI.mem.content k v

section
variable {w : Word} {p : Key} {b : UInt8} {n : Nat} {pfx : List UInt8} {big : Bool} {ch : UInt8 → T}

theorem Sub.view (h : Sub env s σ w p b (.node n pfx big ch)) : View env.P s.st.baNext s.st.mem w p n pfx big ch := by
  rw [h.word]
  exact View.of_tree h.nb h.inb h.wf h.repr.1

/-- What is printed for a node. -/
theorem Sub.print_node (h : Sub env s σ w p b (.node n pfx big ch)) :
    debugPrintNode s.st w = .ok (.node w pfx ((slotsOf big ch).map fun c => wordOf c (ch c))) := by
  have hv := h.view
  have hbl : n / blockSlots < maxBlockCount := Nat.lt_of_lt_of_le h.inb.1.2.1 hv.hnb
  have hlf : isLeaf w = false := by rw [h.word, isLeaf_wordOf hv.hnb h.inb]; rfl
  unfold debugPrintNode
  simp only [hlf, Bool.false_eq_true, if_false, hv.addr]
  rw [if_neg (by omega), if_neg (by omega), nodeData_view hv]
  simp only [bind, Except.bind, hv.append, List.nil_append]
  unfold Slice.drop
  have hf := hv.fits
  rw [if_pos (by show _ ≤ blockSlots - n % blockSlots; omega)]
  simp only [hv.count]
  rw [hv.wordsAll rfl]
  rfl

theorem Sub.kid (h : Sub env s σ w p b (.node n pfx big ch)) {c : UInt8} (hc : (ch c).isEmpty = false) :
    Sub env s σ (wordOf c (ch c)) (p ++ pfx ++ [c]) c (ch c) := by
  refine ⟨rfl, hc, h.wf.2.2 c, h.inb.2 c, h.repr.2 c, h.nb, fun k v => ?_⟩
  constructor
  · intro hk
    exact ⟨((h.has k v).1 ⟨c, hk⟩).1, ((h.wf.2.2 c).has hk).1⟩
  · rintro ⟨h1, h2⟩
    have h3 : p <+: k := (List.prefix_append p (pfx ++ [c])).trans (by rwa [List.append_assoc] at h2)
    obtain ⟨c', hc', h4⟩ := h.wf.has_node ((h.has k v).2 ⟨h1, h3⟩)
    have h5 : p ++ pfx ++ [c'] = p ++ pfx ++ [c] := (List.prefix_of_prefix_length_le h4 h2 (by simp)).eq_of_length (by simp)
    have h6 : c' = c := by simpa using h5
    exact h6 ▸ hc'

theorem Sub.line (h : Sub env s σ w p b (.node n pfx big ch)) {a : Word} (ha : a ∈ (slotsOf big ch).map fun c => wordOf c (ch c)) (h0 : a ≠ 0) :
    ∃ c, a = wordOf c (ch c) ∧ (ch c).isEmpty = false ∧ keyByte a = c := by
  obtain ⟨c, -, e⟩ := List.mem_map.1 ha
  subst e
  have hne : (ch c).isEmpty = false := by
    rw [← Bool.not_eq_true]
    exact fun h1 => h0 ((h.view.kid_zero c).2 h1)
  exact ⟨c, rfl, hne, h.view.keyByte_kid c (present_eq_true.2 hne)⟩

end

/-- Every listed word stands for a subtree. -/
theorem Listed.sub (h : Run env Calm s σ) {w : Word} {p : Key} (hl : Listed s.st w p) : ∃ b t, Sub env s σ w p b t := by
  induction hl with
  | root h1 h2 =>
    refine Sub.root h fun h0 => ?_
    unfold adminRoot at h1
    rw [if_pos h0] at h1
    cases h1
    exact h2 rfl
  | @line w a p pfx lines h1 h2 h3 h4 ih =>
    obtain ⟨b, t, hs⟩ := ih
    cases t with
    | empty => exact absurd hs.ne (by simp [T.isEmpty])
    | leaf k v =>
      have e : isLeaf w = true := by
        rw [hs.word, isLeaf_wordOf (Nat.le_trans s.st.baNext_le hs.nb) hs.inb]; rfl
      unfold debugPrintNode at h2
      rw [if_pos e] at h2
      cases h2
    | node n pfx big ch =>
      rw [hs.print_node] at h2
      cases h2
      obtain ⟨c, e, hne, hk⟩ := hs.line h3 h4
      rw [hk, e]
      exact ⟨c, ch c, hs.kid hne⟩

/-- In any state of a calm execution: nothing that can be found by following the printed words makes the print panic, or is printed as
invalid; and leaves, prefixes and bytes describe the stored keys. -/
theorem C53_prints_partial (h : Run env Calm s σ) {w : Word} {p : Key} (hl : Listed s.st w p) :
    ∃ out, debugPrintNode s.st w = .ok out ∧ Shows σ.map w p out := by
  obtain ⟨b, t, hs⟩ := hl.sub h
  cases t with
  | empty => exact absurd hs.ne (by simp [T.isEmpty])
  | leaf lk lv =>
    have e : isLeaf w = true := by
      rw [hs.word, isLeaf_wordOf (Nat.le_trans s.st.baNext_le hs.nb) hs.inb]; rfl
    refine ⟨.leaf w, by unfold debugPrintNode; rw [if_pos e], rfl, lk, ?_, ?_, ?_⟩
    · exact hs.wf.1
    · have h1 := ((hs.has lk lv).1 ⟨rfl, rfl⟩).1
      have h2 : trunc55 lv = lv := hs.wf.2.2.2
      rw [h1, hs.word]
      simp [wordOf, h2]
    · intro k v h1 h2
      exact ((hs.has k v).2 ⟨h1, h2⟩).1.symm
  | node n pfx big ch =>
    refine ⟨_, hs.print_node, rfl, ?_, ?_⟩
    · rw [List.pairwise_filter, List.pairwise_map]
      refine (slotsOf_sorted big ch).imp fun {c d} hcd h1 h2 => ?_
      have key : ∀ c, decide (wordOf c (ch c) ≠ 0) = true → keyByte (wordOf c (ch c)) = c := by
        intro c hc
        have h0 := of_decide_eq_true hc
        refine hs.view.keyByte_kid c (present_eq_true.2 ?_)
        rw [← Bool.not_eq_true]
        exact fun h1 => h0 ((hs.view.kid_zero c).2 h1)
      rw [key c h1, key d h2]
      exact hcd
    · intro k v h1 h2
      obtain ⟨c, hc, h3⟩ := hs.wf.has_node ((hs.has k v).2 ⟨h1, h2⟩)
      have hne : (ch c).isEmpty = false := by
        cases e : ch c with
        | empty => rw [e] at hc; exact absurd hc id
        | _ => rfl
      have hk := hs.view.keyByte_kid c (present_eq_true.2 hne)
      refine ⟨wordOf c (ch c), List.mem_map.2 ⟨c, mem_slotsOf.2 (.inr hne), rfl⟩, ?_, ?_⟩
      · intro h0
        have := (hs.view.kid_zero c).1 h0
        rw [hne] at this
        cases this
      · rw [hk]; exact h3

/-- Everything stored is found: some listed leaf has the value, and its path is a beginning of the key. -/
theorem C53_finds_partial (h : Run env Calm s σ) {key : Key} {v : Word} (hm : σ.map key = some v) :
    ∃ w p, Listed s.st w p ∧ p <+: key ∧ debugPrintNode s.st w = .ok (.leaf w) ∧ leafValue w = v := by
  have gen : ∀ (t : T) (w : Word) (p : Key) (b : UInt8), Sub env s σ w p b t → Listed s.st w p → t.Has key v →
      ∃ w p, Listed s.st w p ∧ p <+: key ∧ debugPrintNode s.st w = .ok (.leaf w) ∧ leafValue w = v := by
    intro t
    induction t with
    | empty => intro w p b hs _ _; exact absurd hs.ne (by simp [T.isEmpty])
    | leaf lk lv =>
      intro w p b hs hl hh
      obtain ⟨rfl, rfl⟩ := hh
      have e : isLeaf w = true := by
        rw [hs.word, isLeaf_wordOf (Nat.le_trans s.st.baNext_le hs.nb) hs.inb]; rfl
      refine ⟨w, p, hl, hs.wf.1, by unfold debugPrintNode; rw [if_pos e], ?_⟩
      have h2 : trunc55 lv = lv := hs.wf.2.2.2
      rw [hs.word]
      simp [wordOf, h2]
    | node n pfx big ch ih =>
      intro w p b hs hl hh
      obtain ⟨c, hc⟩ := hh
      have hne : (ch c).isEmpty = false := by
        cases e : ch c with
        | empty => rw [e] at hc; exact absurd hc id
        | _ => rfl
      have hk := hs.view.keyByte_kid c (present_eq_true.2 hne)
      refine ih c (wordOf c (ch c)) (p ++ pfx ++ [c]) c (hs.kid hne) ?_ hc
      have := Listed.line (a := wordOf c (ch c)) hl hs.print_node (List.mem_map.2 ⟨c, mem_slotsOf.2 (.inr hne), rfl⟩) (by
        intro h0
        have := (hs.view.kid_zero c).1 h0
        rw [hne] at this
        cases this)
      rwa [hk] at this
  have hr : s.st.root ≠ 0 := by
    intro h0
    obtain ⟨t, seen, hI⟩ := h.inv
    have h1 := (hI.mem.content key v).2 hm
    obtain ⟨b, e⟩ := rootWord_wordOf t
    have h2 := (wordOf_eq_zero (b := b) (Nat.le_trans s.st.baNext_le hI.mem.core.nb) hI.mem.core.inb).1 (by rw [← e, ← hI.mem.core.root, h0])
    cases t with
    | empty => exact h1
    | leaf => simp [T.isEmpty] at h2
    | node => simp [T.isEmpty] at h2
  obtain ⟨b, t, hs⟩ := Sub.root h hr
  have hl : Listed s.st s.st.root [] := by
    have hp : ∃ out, debugPrintNode s.st s.st.root = .ok out ∧ out ≠ .empty := by
      cases t with
      | empty => exact absurd hs.ne (by simp [T.isEmpty])
      | leaf lk lv =>
        have e : isLeaf s.st.root = true := by
          rw [hs.word, isLeaf_wordOf (Nat.le_trans s.st.baNext_le hs.nb) hs.inb]; rfl
        exact ⟨.leaf s.st.root, by unfold debugPrintNode; rw [if_pos e], by simp⟩
      | node n pfx big ch => exact ⟨_, hs.print_node, by simp⟩
    obtain ⟨out, h1, h2⟩ := hp
    exact .root (out := out) (by unfold adminRoot; rw [if_neg hr, h1]) h2
  exact gen t _ _ b hs hl ((hs.has key v).2 ⟨hm, List.nil_prefix⟩)

/-- `root` says that the index is empty only if nothing is stored. -/
theorem C53_empty (h : Run env Calm s σ) (he : adminRoot s.st = .ok .empty) (key : Key) : σ.map key = none := by
  cases hm : σ.map key with
  | none => rfl
  | some v =>
    obtain ⟨w, p, hl, -⟩ := C53_finds_partial h hm
    exfalso
    have hr : ∀ {w p}, Listed s.st w p → False := by
      intro w p hl
      induction hl with
      | root h1 h2 => rw [he] at h1; cases h1; exact h2 rfl
      | line _ _ _ _ ih => exact ih
    exact hr hl

/-! ## The command `node` -/

/-- C53 in full, first part: no argument makes the command `node` panic. -/
def C53_statement : Prop := ∀ (env : Env) (s : Sys) (σ : Spec), Run env Calm s σ → 0 < s.st.nblocks → ∀ arg, ∃ out, adminNode s.st arg = .ok out

/-- C53 in full, second part: the command `node` with a number printed before prints what has this number. -/
def C53_lookup_statement : Prop := ∀ (env : Env) (s : Sys) (σ : Spec), Run env Calm s σ → ∀ w p, Listed s.st w p →
    adminNode s.st (some w.toNat) = debugPrintNode s.st w

/-- The number 2^43 makes it panic in every state (admin.go:96 compares with `>`). -/
theorem C53_panics (st : St) : adminNode st (some (2 ^ 43)) = .error .index := by
  have e : UInt64.ofNat (atoi (some (2 ^ 43)) % 2 ^ 64).toNat = 0x80000000000 := by decide
  unfold adminNode
  rw [e]
  unfold debugPrintNode
  rw [if_neg (by decide)]
  have e2 : nodeAddr 0x80000000000 = 2 ^ 34 := by decide
  simp only [e2]
  rw [if_neg (by decide), if_pos (by decide)]

/-- For a number from 2^63 the command prints a leaf that does not exist, in every state. -/
theorem C53_clamped (st : St) (w : Word) (hw : 2 ^ 63 ≤ w.toNat) : adminNode st (some w.toNat) = .ok (.leaf 0x7fffffffffffffff) := by
  have e : atoi (some w.toNat) = 2 ^ 63 - 1 := by
    simp only [atoi]
    rw [if_pos (by omega)]
  have e1 : UInt64.ofNat ((2 ^ 63 - 1 : Int) % 2 ^ 64).toNat = 0x7fffffffffffffff := by decide
  unfold adminNode
  rw [e, e1]
  unfold debugPrintNode
  rw [if_pos (by decide)]

/-- With smaller numbers the command does what `debugPrintNode` does for the word. -/
theorem adminNode_small (st : St) (w : Word) (hw : w.toNat < 2 ^ 63) : adminNode st (some w.toNat) = debugPrintNode st w := by
  have e : atoi (some w.toNat) = w.toNat := by
    simp only [atoi]
    rw [if_neg (by omega), if_neg (by omega)]
  unfold adminNode
  rw [e]
  congr 1
  apply UInt64.toNat_inj.1
  rw [UInt64.toNat_ofNat']
  omega

/-- C53, second part, for the numbers which `strconv.Atoi` accepts. -/
theorem C53_lookup_partial (h : Run env Calm s σ) {w : Word} {p : Key} (hl : Listed s.st w p) (hw : w.toNat < 2 ^ 63) :
    ∃ out, adminNode s.st (some w.toNat) = .ok out ∧ Shows σ.map w p out := by
  rw [adminNode_small _ _ hw]
  exact C53_prints_partial h hl

/-- A tree with the single key "apple" and the value 2^54. -/
def bigValueActs : List Act := [.block] ++ putActs 0 [97, 112, 112, 108, 101] 0x40000000000000 2

theorem C53_does_not_hold : ¬ C53_statement ∧ ¬ C53_lookup_statement := by
  obtain ⟨s, σ, h1, h2⟩ := Run.ofCheck (h := demoKeys_good) (G := Serial) serial_sound (n := 2) (acts := bigValueActs)
    (check := fun s _ => decide (0 < s.st.nblocks) && decide (s.st.root = buildLeaf 97 0x40000000000000)) (by decide +kernel)
  simp only [Bool.and_eq_true, decide_eq_true_eq] at h2
  constructor
  · intro h
    obtain ⟨out, e⟩ := h _ s σ h1.calm h2.1 (some (2 ^ 43))
    rw [C53_panics] at e
    cases e
  · intro h
    have e1 : debugPrintNode s.st (buildLeaf 97 0x40000000000000) = .ok (.leaf (buildLeaf 97 0x40000000000000)) := by
      unfold debugPrintNode; rw [if_pos (by decide)]
    have hl : Listed s.st s.st.root [] := .root (out := .leaf (buildLeaf 97 0x40000000000000))
      (by unfold adminRoot; rw [if_neg (by rw [h2.2]; decide), h2.2, e1]) (by simp)
    have e2 := h _ s σ h1.calm _ _ hl
    rw [h2.2, C53_clamped _ _ (by decide), e1] at e2
    revert e2
    decide

/-- The hypotheses are met: for the tree with four keys `root` prints a node without prefix and with two lines, and the command `node` with the
number of the first of them prints a node with prefix "p" and the leaves of "apple" and "april". -/
example : ∃ s σ, Run demoEnv Calm s σ ∧ ∃ w1 w2, adminRoot s.st = .ok (.node s.st.root [] [w1, w2]) ∧ keyByte w1 = 97 ∧ keyByte w2 = 98 ∧
    Listed s.st w1 [97] ∧ w1.toNat < 2 ^ 63 ∧ adminNode s.st (some w1.toNat) = .ok (.node w1 [112] [buildLeaf 112 0, buildLeaf 114 1]) := by
  obtain ⟨s, σ, h1, -, -, -, h2⟩ := demoFour (fun s => match adminRoot s.st with
    | .ok (.node raw [] [w1, w2]) => decide (raw = s.st.root) && decide (keyByte w1 = 97) && decide (keyByte w2 = 98) && decide (w1 ≠ 0) && decide (s.st.root ≠ 0) &&
        decide (w1.toNat < 2 ^ 63) && decide (adminNode s.st (some w1.toNat) = .ok (.node w1 [112] [buildLeaf 112 0, buildLeaf 114 1]))
    | _ => false) (by decide +kernel)
  refine ⟨s, σ, h1.serialInserts.insertOnly_calm, ?_⟩
  split at h2
  · rename_i raw w1 w2 e
    simp only [Bool.and_eq_true, decide_eq_true_eq] at h2
    obtain ⟨⟨⟨⟨⟨⟨e1, e2⟩, e3⟩, e4⟩, e5⟩, e6⟩, e7⟩ := h2
    subst e1
    have e8 : debugPrintNode s.st s.st.root = .ok (.node s.st.root [] [w1, w2]) := by
      unfold adminRoot at e; rwa [if_neg e5] at e
    have hl := Listed.line (a := w1) (.root e (by simp)) e8 (by simp) e4
    rw [e2] at hl
    exact ⟨w1, w2, e, e2, e3, hl, e6, e7⟩
  · cases h2

/-- ... and in the tree of `C53_does_not_hold` everything stored is found at the root. -/
example : ∃ s σ, Run demoEnv Calm s σ ∧ σ.map [97, 112, 112, 108, 101] = some 0x40000000000000 ∧ adminRoot s.st = .ok (.leaf s.st.root) ∧
    2 ^ 63 ≤ s.st.root.toNat := by
  obtain ⟨s, σ, h1, h2⟩ := Run.ofCheck (h := demoKeys_good) (G := Serial) serial_sound (n := 2) (acts := bigValueActs)
    (check := fun s σ => decide (σ.map [97, 112, 112, 108, 101] = some 0x40000000000000) && decide (adminRoot s.st = .ok (.leaf s.st.root)) &&
      decide (2 ^ 63 ≤ s.st.root.toNat)) (by decide +kernel)
  simp only [Bool.and_eq_true, decide_eq_true_eq] at h2
  exact ⟨s, σ, h1.calm, h2.1.1, h2.1.2, h2.2⟩

/-- An empty tree: `root` says so. -/
example : ∃ s σ, Run demoEnv Calm s σ ∧ adminRoot s.st = .ok .empty := ⟨Sys.new 2, .init, .init 2, by decide +kernel⟩

end Radix
