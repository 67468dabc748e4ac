import Verif.Model.DebugSearch
import Verif.Properties.Debug
import Verif.Properties.Locks
import Verif.Properties.Two
import Verif.Properties.AbortWrong
/-!
# Property C65: `debugSearch`; property C66: `isLocked`

`SearchTrail st key r w p out`: the list `out` is what `debugPrintNode` prints for `w` and for the nodes below it on the way of `key`, each of them
a line of the one before and the one for the next byte of the key; the last one has a line with the leaf of the value `r`, if there is one.
-/
set_option autoImplicit false
namespace Radix
variable {env : Env} {s : Sys} {σ : Spec}

inductive SearchTrail (st : St) (key : Key) : Option Word → Word → Key → List Printed → Prop
  | miss {w : Word} {p pfx : List UInt8} {lines : List Word} : debugPrintNode st w = .ok (.node w pfx lines) →
      (∀ a ∈ lines, a ≠ 0 → key[(p ++ pfx).length]? ≠ some (keyByte a)) → SearchTrail st key none w p [.node w pfx lines]
  | leaf {w a : Word} {p pfx : List UInt8} {lines : List Word} : debugPrintNode st w = .ok (.node w pfx lines) → a ∈ lines →
      key[(p ++ pfx).length]? = some (keyByte a) → isLeaf a = true → SearchTrail st key (some (leafValue a)) w p [.node w pfx lines]
  | down {w a : Word} {p pfx : List UInt8} {lines : List Word} {r : Option Word} {out : List Printed} :
      debugPrintNode st w = .ok (.node w pfx lines) → a ∈ lines → key[(p ++ pfx).length]? = some (keyByte a) → a ≠ 0 → isLeaf a = false →
      SearchTrail st key r a (p ++ pfx ++ [keyByte a]) out → SearchTrail st key r w p (.node w pfx lines :: out)

theorem debugSearchLoop_agrees {st : St} {key : Key} : ∀ {fuel : Nat} {raw : Word} {d : Nat} {v : Word} {out : List Printed},
    debugSearchLoop st key fuel raw d = .ok (v, out) → ∃ r, searchLoop st key fuel raw d = .ok r ∧ v = r.getD 0 := by
  intro fuel
  induction fuel with
  | zero => intro raw d v out h; cases h
  | succ fuel ih =>
    intro raw d v out h
    unfold debugSearchLoop at h
    unfold searchLoop
    simp only [bind, Except.bind, pure, Except.pure] at h ⊢
    split at h
    · cases h
    split at h
    · cases h
    rename_i data hd
    try rw [hd]
    try simp only
    split at h
    · cases h
    rename_i sk hs
    try rw [hs]
    try simp only
    split at h
    · rename_i hl
      rw [if_pos hl]
      cases h
      exact ⟨none, rfl, rfl⟩
    rename_i hl
    rw [if_neg hl]
    split at h
    · cases h
    rename_i k hk
    try rw [hk]
    try simp only
    split at h
    · rename_i hc
      rw [if_pos hc]
      split at h
      · cases h
      rename_i a ha
      try rw [ha]
      try simp only
      split at h
      · rename_i h0
        rw [if_pos h0]
        cases h
        exact ⟨none, rfl, rfl⟩
      rename_i h0
      rw [if_neg h0]
      split at h
      · rename_i h1
        rw [if_pos h1]
        cases h
        exact ⟨_, rfl, rfl⟩
      rename_i h1
      rw [if_neg h1]
      split at h
      · cases h
      rename_i x hx
      cases h
      exact ih (v := x.1) (out := x.2) hx
    · rename_i hc
      rw [if_neg hc]
      split at h
      · cases h
      rename_i ws hw
      try rw [hw]
      try simp only
      split at h
      · rename_i h0
        rw [if_pos h0]
        split at h
        · rename_i h1
          rw [if_pos h1]
          cases h
          exact ⟨_, rfl, rfl⟩
        rename_i h1
        rw [if_neg h1]
        split at h
        · cases h
        rename_i x hx
        cases h
        exact ih (v := x.1) (out := x.2) hx
      · rename_i h0
        rw [if_neg h0]
        cases h
        exact ⟨none, rfl, rfl⟩

/-- C65, in any state whatever: what `debugSearch` returns is what `Lookup` finds, or 0. -/
theorem C65_agrees {st : St} {key : Key} {v : Word} {out : List Printed} (h : debugSearch st key = .ok (v, out)) :
    ∃ r, search st key = .ok r ∧ v = r.getD 0 := by
  unfold debugSearch at h
  unfold search
  split at h
  · rename_i hl
    rw [if_pos hl]
    simp only [bind, Except.bind, pure, Except.pure] at h ⊢
    split at h
    · cases h
    rename_i k hk
    try rw [hk]
    try simp only
    split at h
    · rename_i h0
      rw [if_pos h0]
      cases h
      exact ⟨_, rfl, rfl⟩
    · rename_i h0
      rw [if_neg h0]
      cases h
      exact ⟨none, rfl, rfl⟩
  · rename_i hl
    rw [if_neg hl]
    exact debugSearchLoop_agrees h

theorem isNode_of_not {t : T} (h1 : t.isEmpty = false) (h2 : t.isLf = false) : t.isNode = true := by
  cases t with
  | empty => cases h1
  | leaf => cases h2
  | node => rfl

/-- The loop, from a node of the tree. -/
theorem Sub.trail {key : Key} : ∀ {t : T} {w : Word} {p : Key} {b : UInt8} {fuel : Nat}, Sub env s σ w p b t → t.isNode = true →
    p.length ≤ key.length → key.length < p.length + fuel →
    ∃ r out, searchLoop s.st key fuel w p.length = .ok r ∧ debugSearchLoop s.st key fuel w p.length = .ok (r.getD 0, out) ∧
      SearchTrail s.st key r w p out := by
  intro t
  induction t with
  | empty => intro _ _ _ _ _ h; cases h
  | leaf => intro _ _ _ _ _ h; cases h
  | node n pfx big ch ih =>
    intro w p b fuel hs _ hq hfuel
    have hv := hs.view
    cases fuel with
    | zero => omega
    | succ fuel =>
      have hp := hs.print_node
      unfold debugSearchLoop searchLoop
      rw [hp, hv.addr, nodeData_view hv]
      simp only [bind, Except.bind, pure, Except.pure]
      rw [hv.skip]
      simp only
      by_cases hlt : p.length + pfx.length ≥ key.length
      · rw [if_pos hlt, if_pos hlt]
        exact ⟨none, _, rfl, rfl, .miss hp fun a _ _ => by rw [List.getElem?_eq_none (by simpa using hlt)]; simp⟩
      · rw [if_neg hlt, if_neg hlt]
        obtain ⟨k, hk⟩ : ∃ k, key[p.length + pfx.length]? = some k := by
          rw [List.getElem?_eq_getElem (by omega)]; exact ⟨_, rfl⟩
        have hka : keyAt key (p.length + pfx.length) = .ok k := by unfold keyAt; rw [hk]
        have hk' : key[(p ++ pfx).length]? = some k := by rw [List.length_append]; exact hk
        rw [hka]
        simp only
        have hmiss : (ch k).isEmpty = true → ∀ a ∈ (slotsOf big ch).map fun c => wordOf c (ch c), a ≠ 0 →
            key[(p ++ pfx).length]? ≠ some (keyByte a) := by
          intro he a ha h0 h1
          obtain ⟨c, -, hne, hc⟩ := hs.line ha h0
          rw [hk', hc] at h1
          cases h1
          rw [he] at hne
          cases hne
        have hmem : (ch k).isEmpty = false → wordOf k (ch k) ∈ (slotsOf big ch).map fun c => wordOf c (ch c) := fun he =>
          List.mem_map.2 ⟨k, mem_slotsOf.2 (.inr he), rfl⟩
        have hkb : (ch k).isEmpty = false → key[(p ++ pfx).length]? = some (keyByte (wordOf k (ch k))) := fun he => by
          rw [hv.keyByte_kid k (present_eq_true.2 he)]; exact hk'
        have hrec : (ch k).isNode = true → (ch k).isEmpty = false → ∃ r out, searchLoop s.st key fuel (wordOf k (ch k)) (p.length + pfx.length + 1) = .ok r ∧
            debugSearchLoop s.st key fuel (wordOf k (ch k)) (p.length + pfx.length + 1) = .ok (r.getD 0, out) ∧
            SearchTrail s.st key r (wordOf k (ch k)) (p ++ pfx ++ [keyByte (wordOf k (ch k))]) out := by
          intro hn he
          have h1 := ih k (fuel := fuel) (hs.kid he) hn
            (by simp only [List.length_append, List.length_cons, List.length_nil]; omega)
            (by simp only [List.length_append, List.length_cons, List.length_nil]; omega)
          rw [hv.keyByte_kid k (present_eq_true.2 he)]
          simpa [Nat.add_assoc] using h1
        by_cases hb : big = true
        · rw [if_pos (hv.big_iff.2 hb), if_pos (hv.big_iff.2 hb), hv.getBig hb]
          simp only [hv.kid_zero, hv.kid_isLeaf]
          cases he : (ch k).isEmpty with
          | true =>
            simp only [if_true]
            exact ⟨none, _, rfl, rfl, .miss hp (hmiss he)⟩
          | false =>
            simp only [Bool.false_eq_true, if_false]
            cases hl : (ch k).isLf with
            | true =>
              simp only [if_true]
              exact ⟨_, _, rfl, rfl, .leaf hp (hmem he) (hkb he) (by rw [hv.kid_isLeaf]; exact hl)⟩
            | false =>
              simp only [Bool.false_eq_true, if_false]
              obtain ⟨r, out, h1, h2, h3⟩ := hrec (isNode_of_not he hl) he
              rw [h1, h2]
              exact ⟨r, _, rfl, rfl, .down hp (hmem he) (hkb he) (by rw [Ne, hv.kid_zero, he]; simp) (by rw [hv.kid_isLeaf]; exact hl) h3⟩
        · have hb' : big = false := by simpa using hb
          rw [if_neg (by rw [hv.big_iff]; exact hb), if_neg (by rw [hv.big_iff]; exact hb), hv.count, hv.wordsSmall hb']
          simp only
          cases he : (ch k).isEmpty with
          | true =>
            rw [if_neg (hv.scan_none hb' he).2, if_neg (hv.scan_none hb' he).2]
            exact ⟨none, _, rfl, rfl, .miss hp (hmiss he)⟩
          | false =>
            rw [hv.scan_some he]
            simp only
            rw [if_pos (hv.keyByte_kid k (present_eq_true.2 he)), if_pos (hv.keyByte_kid k (present_eq_true.2 he)), hv.kid_isLeaf]
            cases hl : (ch k).isLf with
            | true =>
              simp only [if_true]
              exact ⟨_, _, rfl, rfl, .leaf hp (hmem he) (hkb he) (by rw [hv.kid_isLeaf]; exact hl)⟩
            | false =>
              simp only [Bool.false_eq_true, if_false]
              obtain ⟨r, out, h1, h2, h3⟩ := hrec (isNode_of_not he hl) he
              rw [h1, h2]
              exact ⟨r, _, rfl, rfl, .down hp (hmem he) (hkb he) (by rw [Ne, hv.kid_zero, he]; simp) (by rw [hv.kid_isLeaf]; exact hl) h3⟩

/-- C65: when the root is a node, `debugSearch` prints the nodes on the way of the key, and returns what is found at the end of it. -/
theorem C65_trail (h : Run env Calm s σ) (hr : s.st.root ≠ 0) (hl : isLeaf s.st.root = false) (key : Key) :
    ∃ r out, search s.st key = .ok r ∧ debugSearch s.st key = .ok (r.getD 0, out) ∧ SearchTrail s.st key r s.st.root [] out := by
  obtain ⟨b, t, hs⟩ := Sub.root h hr
  have hn : t.isNode = true := by
    have h1 := hs.word ▸ isLeaf_wordOf (b := b) (Nat.le_trans s.st.baNext_le hs.nb) hs.inb
    rw [hl] at h1
    exact isNode_of_not hs.ne h1.symm
  obtain ⟨r, out, h1, h2, h3⟩ := hs.trail (key := key) (fuel := key.length + 1) hn (by simp) (by simp)
  refine ⟨r, out, ?_, ?_, h3⟩
  · unfold search; rw [if_neg (by rw [hl]; simp)]; exact h1
  · unfold debugSearch; rw [if_neg (by rw [hl]; simp)]; exact h2

theorem debugPrintNode_zero {st : St} (hnb : 0 < st.nblocks) : ∃ out, debugPrintNode st 0 = .ok out := by
  unfold debugPrintNode
  have e1 : nodeAddr 0 = 0 := by decide
  have e2 : nodePlen 0 = 0 := by decide
  have e3 : nodeCount 0 = 1 := by decide
  have e6 : st.nodeData 0 = .ok ⟨0, blockSlots⟩ := by
    unfold St.nodeData; rw [if_pos (by simpa using hnb)]; rfl
  rw [if_neg (by decide), e1]
  simp only
  rw [if_neg (by decide), if_neg (by decide), e6, e2, e3]
  exact ⟨_, rfl⟩

/-- In an empty index (radix.go:586-639 goes on in the node 0 of one slot, whose word is 0, as long as the bytes of the key are 0). -/
theorem debugSearchLoop_zero {st : St} {key : Key} (hnb : 0 < st.nblocks) (h0 : st.mem 0 = 0) : ∀ (fuel depth : Nat),
    depth ≤ key.length → key.length < depth + fuel → ∃ out, debugSearchLoop st key fuel 0 depth = .ok (0, out) := by
  obtain ⟨x, hx⟩ := debugPrintNode_zero hnb
  intro fuel
  induction fuel with
  | zero => intro depth h1 h2; omega
  | succ fuel ih =>
    intro depth h1 h2
    have e1 : nodeAddr 0 = 0 := by decide
    have e2 : nodePlen 0 = 0 := by decide
    have e3 : nodeCount 0 = 1 := by decide
    have e5 : isLeaf 0 = false := by decide
    have e6 : st.nodeData 0 = .ok ⟨0, blockSlots⟩ := by
      unfold St.nodeData; rw [if_pos (by simpa using hnb)]; rfl
    unfold debugSearchLoop
    rw [hx, e1, e6]
    simp only [bind, Except.bind, e2, skipPrefix, Nat.lt_irrefl, if_false, gt_iff_lt, pure, Except.pure, Nat.add_zero, e3]
    by_cases hd : depth ≥ key.length
    · rw [if_pos hd]
      exact ⟨_, rfl⟩
    · rw [if_neg hd]
      have hka : keyAt key depth = .ok key[depth] := by
        unfold keyAt; rw [List.getElem?_eq_getElem (by omega)]
      rw [hka]
      simp only
      rw [if_neg (by decide)]
      have hw : Slice.words st.mem ⟨0, blockSlots⟩ 1 = .ok [0] := by
        unfold Slice.words
        rw [if_pos (by decide)]
        simp [readWords, h0]
      rw [hw]
      have hs : (scan key[depth] [0]).2 = 0 := by unfold scan; split <;> rfl
      simp only [hs, e5]
      split
      · simp only [Bool.false_eq_true, if_false]
        obtain ⟨out, h⟩ := ih (depth + 1) (by omega) (by omega)
        rw [h]
        exact ⟨_, rfl⟩
      · exact ⟨_, rfl⟩

/-- C65: `debugSearch` does not panic, and returns what `Lookup` finds, or 0. -/
theorem C65_returns (h : Run env Calm s σ) (hb : 0 < s.st.nblocks) {key : Key} (hk : key ≠ []) :
    ∃ r out, search s.st key = .ok r ∧ debugSearch s.st key = .ok (r.getD 0, out) := by
  by_cases hr : s.st.root = 0
  · obtain ⟨t, seen, hI⟩ := h.inv
    have e5 : isLeaf 0 = false := by decide
    obtain ⟨out, h1⟩ := debugSearchLoop_zero (key := key) hb hI.mem.core.zero (key.length + 1) 0 (by omega) (by omega)
    have h2 : debugSearch s.st key = .ok (0, out) := by
      unfold debugSearch
      rw [hr, e5]
      exact h1
    refine ⟨none, out, ?_, h2⟩
    unfold search
    rw [hr, e5]
    exact searchLoop_zero hb hI.mem.core.zero _ _ (by omega) (by omega)
  · cases hl : isLeaf s.st.root with
    | false =>
      obtain ⟨r, out, h1, h2, -⟩ := C65_trail h hr hl key
      exact ⟨r, out, h1, h2⟩
    | true =>
      obtain ⟨k, h1, -⟩ := keyAt_zero hk
      unfold search debugSearch
      rw [if_pos hl, if_pos hl, h1]
      simp only [bind, Except.bind, pure, Except.pure]
      split
      · exact ⟨_, _, rfl, rfl⟩
      · exact ⟨none, _, rfl, rfl⟩

theorem SearchTrail.listed (h : Run env Calm s σ) {key : Key} {v : Word} (hv : σ.map key = some v) {r : Option Word} {w : Word} {p : Key}
    {out : List Printed} (ht : SearchTrail s.st key r w p out) : Listed s.st w p → p <+: key →
    ∀ x ∈ out, ∃ w p pfx lines, x = .node w pfx lines ∧ Listed s.st w p ∧ p ++ pfx <+: key := by
  have here : ∀ {w : Word} {p pfx : List UInt8} {lines : List Word}, debugPrintNode s.st w = .ok (.node w pfx lines) → Listed s.st w p → p <+: key →
      p ++ pfx <+: key := by
    intro w p pfx lines h1 hl hp
    obtain ⟨out, h2, h3⟩ := C53_prints_partial h hl
    rw [h1] at h2
    cases h2
    obtain ⟨a, -, -, h4⟩ := h3.2.2 key v hv hp
    exact (List.prefix_append _ _).trans h4
  induction ht with
  | miss h1 _ =>
    intro hl hp x hx
    rw [List.mem_singleton] at hx
    exact ⟨_, _, _, _, hx, hl, here h1 hl hp⟩
  | leaf h1 _ _ _ =>
    intro hl hp x hx
    rw [List.mem_singleton] at hx
    exact ⟨_, _, _, _, hx, hl, here h1 hl hp⟩
  | @down w a p pfx lines r out h1 h2 h3 h4 _ _ ih =>
    intro hl hp x hx
    have hpp := here h1 hl hp
    rcases List.mem_cons.1 hx with hx | hx
    · exact ⟨_, _, _, _, hx, hl, hpp⟩
    · refine ih (.line hl h1 h2 h4) ?_ x hx
      obtain ⟨rest, rfl⟩ := hpp
      rw [List.getElem?_append_right (Nat.le_refl _), Nat.sub_self] at h3
      cases rest with
      | nil => cases h3
      | cons c rest =>
        simp only [List.getElem?_cons_zero, Option.some.injEq] at h3
        rw [h3]
        exact ⟨rest, by simp⟩

/-- C65, for a stored key: `debugSearch` returns the value, and all it prints are nodes of the tree whose paths and prefixes the key begins with. -/
theorem C65_stored (h : Run env Calm s σ) {key : Key} {v : Word} (hv : σ.map key = some v) :
    ∃ out, debugSearch s.st key = .ok (v, out) ∧ (isLeaf s.st.root = true → out = []) ∧
      (isLeaf s.st.root = false → SearchTrail s.st key (some v) s.st.root [] out) ∧
      ∀ x ∈ out, ∃ w p pfx lines, x = .node w pfx lines ∧ Listed s.st w p ∧ p ++ pfx <+: key := by
  obtain ⟨t, seen, hI⟩ := h.inv
  have hk : key ≠ [] := env.ne (hI.stored hv).1
  have hr : s.st.root ≠ 0 := fun h0 => by
    have := C53_empty h (by unfold adminRoot; rw [if_pos h0]) key
    rw [hv] at this
    cases this
  obtain ⟨r, h1, h2, h3⟩ := hI.search (st' := s.st) rfl rfl rfl hk (by rw [hv]; intro h; cases h)
  obtain ⟨v', rfl⟩ : ∃ v', r = some v' := by
    cases r with
    | none => rw [h3 rfl] at hv; cases hv
    | some v' => exact ⟨v', rfl⟩
  obtain ⟨k', h4, -, h5⟩ := h2 v' rfl
  have e := h5 (by rw [hv]; simp)
  rw [e, hv] at h4
  cases h4
  cases hl : isLeaf s.st.root with
  | true =>
    obtain ⟨k, h6, -⟩ := keyAt_zero hk
    unfold search at h1
    rw [if_pos hl, h6] at h1
    simp only [bind, Except.bind, pure, Except.pure] at h1
    split at h1
    · rename_i h7
      cases h1
      refine ⟨[], ?_, fun _ => rfl, (fun h => by cases h), (fun x hx => by cases hx)⟩
      unfold debugSearch
      rw [if_pos hl, h6]
      simp only [bind, Except.bind, pure, Except.pure, if_pos h7]
    · cases h1
  | false =>
    obtain ⟨r, out, h6, h7, h8⟩ := C65_trail h hr hl key
    rw [h1] at h6
    cases h6
    obtain ⟨b, t, hs⟩ := Sub.root h hr
    refine ⟨out, h7, (fun h => by cases h), fun _ => h8, h8.listed h hv ?_ List.nil_prefix⟩
    obtain ⟨x, hx⟩ : ∃ x, debugPrintNode s.st s.st.root = .ok x ∧ x ≠ .empty := by
      cases h8 with
      | leaf h _ _ _ => exact ⟨_, h, by simp⟩
      | down h _ _ _ _ _ => exact ⟨_, h, by simp⟩
    exact .root (out := x) (by unfold adminRoot; rw [if_neg hr]; exact hx.1) hx.2

/-- C66: if `isLocked` of a node returns, it tells whether an operation holds the lock word of the node. -/
theorem C66_isLocked_partial (h : Run env TidyAbort s σ) {n : Nat} {b : Bool} (hb : s.st.isLocked n = .ok b) :
    b = true ↔ ∃ a, Holds s a n := by
  unfold St.isLocked at hb
  split at hb
  · cases hb
    rw [decide_eq_true_iff]
    exact (C26_operations_are_exclusive h n).2
  · cases hb

/-- C66, access by access, with at most two updates or one delete under way. -/
theorem C66_isLocked_two {f : FSys} (h : FRun env FTwoUpdates f σ) {n : Nat} {b : Bool} (hb : f.sys.st.isLocked n = .ok b) :
    b = true ↔ ∃ a, FHolds f a n := by
  unfold St.isLocked at hb
  split at hb
  · cases hb
    rw [decide_eq_true_iff]
    exact (C47_locks_are_exclusive h n).2
  · cases hb

/-- C66: it returns for every node in an allocated block. -/
theorem C66_returns {st : St} {n : Nat} (h : n / blockSlots < st.nblocks) : ∃ b, st.isLocked n = .ok b := by
  unfold St.isLocked
  rw [if_pos h]
  exact ⟨_, rfl⟩

/-- The full statement of C66. -/
def C66_statement : Prop := ∀ (env : Env) (s : Sys) (σ : Spec), Run env (fun _ _ => True) s σ → ∀ (n : Nat) (b : Bool),
  s.st.isLocked n = .ok b → (b = true ↔ ∃ a, Holds s a n)

/-- C66 does not hold: after `Abort` of a delete has released the lock of an update (C07), `isLocked` says that the node is not locked. -/
theorem C66_does_not_hold : ¬ C66_statement := by
  intro hall
  obtain ⟨s, σ, h1, op, _, _, h2, _, h3, h4⟩ := wrong_abort
  have e : s.st.isLocked 4096 = .ok false := by
    unfold St.isLocked
    rw [if_pos (by rw [show 4096 / blockSlots = 0 by decide]; exact h3), decide_eq_false (by omega)]
  have h5 := (hall _ s σ h1 4096 false e).2 ⟨0, 4096, h4, rfl, rfl⟩
  cases h5

/-! ## Executions -/

/-- For "april" in the tree with four keys: the root and the node with prefix "p" are printed, and 1 is returned; for "x", which is not
stored, the root is printed and 0 is returned. -/
example : ∃ s σ, Run demoEnv Calm s σ ∧ 0 < s.st.nblocks ∧ s.st.root ≠ 0 ∧ isLeaf s.st.root = false ∧ σ.map [97, 112, 114, 105, 108] = some 1 ∧
    (∃ w1 w2, debugSearch s.st [97, 112, 114, 105, 108] =
      .ok (1, [.node s.st.root [] [w1, w2], .node w1 [112] [buildLeaf 112 0, buildLeaf 114 1]])) ∧
    ∃ w1 w2, debugSearch s.st [120] = .ok (0, [.node s.st.root [] [w1, w2]]) := by
  obtain ⟨s, σ, h1, h0, hL, -, h2⟩ := demoFour (fun s => decide (s.st.root ≠ 0) && decide (isLeaf s.st.root = false) &&
    (match debugSearch s.st [97, 112, 114, 105, 108] with
    | .ok (v, [.node raw [] [w1, w2], x]) => decide (v = 1) && decide (raw = s.st.root) && decide (x = .node w1 [112] [buildLeaf 112 0, buildLeaf 114 1])
    | _ => false) &&
    (match debugSearch s.st [120] with
    | .ok (v, [.node raw [] [w1, w2]]) => decide (v = 0) && decide (raw = s.st.root)
    | _ => false)) (by decide +kernel)
  simp only [Bool.and_eq_true, decide_eq_true_eq] at h2
  obtain ⟨⟨⟨h3, h4⟩, h5⟩, h6⟩ := h2
  refine ⟨s, σ, h1.serialInserts.insertOnly_calm, h0, h3, h4, ?_, ?_, ?_⟩
  · exact ((hL.2 _ _).1 (by decide)).1
  · split at h5
    · rename_i e
      simp only [Bool.and_eq_true, decide_eq_true_eq] at h5
      obtain ⟨⟨e1, e2⟩, e3⟩ := h5
      subst e1 e2 e3
      exact ⟨_, _, e⟩
    · cases h5
  · split at h6
    · rename_i e
      simp only [Bool.and_eq_true, decide_eq_true_eq] at h6
      obtain ⟨e1, e2⟩ := h6
      subst e1 e2
      exact ⟨_, _, e⟩
    · cases h6

/-- While two inserts are under way, `isLocked` of the node 4, which the first has locked and is about to give back, returns true, and of the
node 40 false. -/
example : ∃ f σ, FRun raceEnv FTwoUpdates f σ ∧ FHolds f 0 4 ∧ f.sys.st.isLocked 4 = .ok true ∧ f.sys.st.isLocked 40 = .ok false := by
  obtain ⟨f, σ, h1, h2⟩ := FRun.ofCheck (h := raceKeys_good) (G := FTwoUpdates) twoUpdates_sound (n := 2) (acts := fclash)
    (check := fun f _ => (match f.fine 0 with | .back [x] => decide (x.1 = 4) | _ => false) &&
      decide (f.sys.st.isLocked 4 = .ok true) && decide (f.sys.st.isLocked 40 = .ok false)) (by decide +kernel)
  simp only [Bool.and_eq_true, decide_eq_true_eq] at h2
  obtain ⟨⟨h3, h4⟩, h5⟩ := h2
  split at h3
  · rename_i x hx
    refine ⟨f, σ, h1, .inr ⟨x, ?_, ?_⟩, h4, h5⟩
    · rw [hx]; exact List.mem_cons_self ..
    · rw [of_decide_eq_true h3]; exact ⟨rfl, rfl⟩
  · cases h3

end Radix
