import Verif.IterProof
/-!
# `Count` on a memory representing a tree
-/
set_option autoImplicit false
namespace Radix
open T

/-- How often the counter comes back to a node whose children at the bytes `cs` are still to do: once for every child that is a
node and not the last non-empty child. -/
def again (ch : UInt8 → T) : List UInt8 → Nat
  | [] => 0
  | c :: cs => (if (ch c).isNode = true ∧ skipEmpty ch cs ≠ [] then 1 else 0) + again ch cs

/-- A statistic of the counter: the sum of `w` (prefix length, number of slots) over all visits of nodes. -/
def T.stat (w : Nat → Nat → Nat) : T → Nat
  | .empty => 0
  | .leaf _ _ => 0
  | .node _ pfx big ch => (1 + again ch allBytes) * w pfx.length (cnt big ch) + sumB fun c => (ch c).stat w

/-- The same for the children at the bytes `cs`. -/
def statAt (w : Nat → Nat → Nat) (ch : UInt8 → T) (cs : List UInt8) : Nat := (cs.map fun c => (ch c).stat w).sum

section
variable (w : Nat → Nat → Nat) (ch : UInt8 → T)

@[simp] theorem statAt_nil : statAt w ch [] = 0 := rfl
@[simp] theorem statAt_cons (c : UInt8) (cs : List UInt8) : statAt w ch (c :: cs) = (ch c).stat w + statAt w ch cs := by
  simp [statAt]

theorem again_skipEmpty : ∀ cs, again ch (skipEmpty ch cs) = again ch cs
  | [] => rfl
  | c :: cs => by
    unfold skipEmpty
    rw [List.dropWhile_cons]
    split
    · rename_i h
      rw [again, T.isEmpty_eq_true.1 h]
      simp only [T.isNode, Bool.false_eq_true, false_and, if_false, Nat.zero_add]
      exact again_skipEmpty cs
    · rfl

theorem statAt_skipEmpty : ∀ cs, statAt w ch (skipEmpty ch cs) = statAt w ch cs
  | [] => rfl
  | c :: cs => by
    unfold skipEmpty
    rw [List.dropWhile_cons]
    split
    · rename_i h
      rw [statAt_cons, T.isEmpty_eq_true.1 h]
      simp only [T.stat, Nat.zero_add]
      exact statAt_skipEmpty cs
    · rfl

theorem skipEmpty_filter : ∀ cs, skipEmpty ch (cs.filter (present ch)) = [] ↔ skipEmpty ch cs = []
  | [] => Iff.rfl
  | c :: cs => by
    cases hc : present ch c with
    | true =>
      have h1 : (ch c).isEmpty = false := present_eq_true.1 hc
      rw [List.filter_cons_of_pos hc]
      unfold skipEmpty
      rw [List.dropWhile_cons, List.dropWhile_cons, if_neg (by simp [h1]), if_neg (by simp [h1])]
      simp
    | false =>
      have h1 : (ch c).isEmpty = true := by simpa [present] using hc
      rw [List.filter_cons_of_neg (by simp [hc])]
      unfold skipEmpty
      rw [List.dropWhile_cons, if_pos h1]
      exact skipEmpty_filter cs

theorem again_filter : ∀ cs, again ch (cs.filter (present ch)) = again ch cs
  | [] => rfl
  | c :: cs => by
    cases hc : present ch c with
    | true =>
      rw [List.filter_cons_of_pos hc, again, again, again_filter cs]
      congr 1
      simp only [ne_eq, skipEmpty_filter ch cs]
    | false =>
      have h1 : (ch c).isEmpty = true := by simpa [present] using hc
      rw [List.filter_cons_of_neg (by simp [hc]), again, again_filter cs, T.isEmpty_eq_true.1 h1]
      simp

theorem statAt_filter : ∀ cs, statAt w ch (cs.filter (present ch)) = statAt w ch cs
  | [] => rfl
  | c :: cs => by
    cases hc : present ch c with
    | true => rw [List.filter_cons_of_pos hc, statAt_cons, statAt_cons, statAt_filter cs]
    | false =>
      have h1 : (ch c).isEmpty = true := by simpa [present] using hc
      rw [List.filter_cons_of_neg (by simp [hc]), statAt_cons, statAt_filter cs, T.isEmpty_eq_true.1 h1]
      simp [T.stat]

theorem stat_slotsOf (n : Nat) (pfx : List UInt8) (big : Bool) :
    (T.node n pfx big ch).stat w = (1 + again ch (slotsOf big ch)) * w pfx.length (cnt big ch) + statAt w ch (slotsOf big ch) := by
  have h1 : again ch (slotsOf big ch) = again ch allBytes := by
    unfold slotsOf
    split
    · rfl
    · exact again_filter ch allBytes
  have h2 : statAt w ch (slotsOf big ch) = statAt w ch allBytes := by
    unfold slotsOf
    split
    · rfl
    · exact statAt_filter w ch allBytes
  rw [h1, h2]; rfl

end

theorem scanG_again {ch : UInt8 → T} : ∀ {cs : List UInt8} {l r}, scanG ch cs = (l, r) →
    again ch cs = (match r with | none => 0 | some (_, rest) => (if skipEmpty ch rest ≠ [] then 1 else 0) + again ch rest)
  | [], l, r, h => by cases h; rfl
  | c :: cs, l, r, h => by
    rw [again]
    simp only [scanG] at h
    split at h
    · rename_i e; rw [e]; simpa using scanG_again h
    · rename_i k v e
      cases h
      have := scanG_again (ch := ch) (cs := cs) rfl
      rw [e, this]; simp
    · rename_i e
      cases h
      rw [e]; simp

theorem scanG_stat {w : Nat → Nat → Nat} {ch : UInt8 → T} : ∀ {cs : List UInt8} {l r}, scanG ch cs = (l, r) →
    statAt w ch cs = (match r with | none => 0 | some (c, rest) => (ch c).stat w + statAt w ch rest)
  | [], l, r, h => by cases h; rfl
  | c :: cs, l, r, h => by
    rw [statAt_cons]
    simp only [scanG] at h
    split at h
    · rename_i e; rw [e]; simpa [T.stat] using scanG_stat h
    · rename_i k v e
      cases h
      have := scanG_stat (w := w) (ch := ch) (cs := cs) rfl
      rw [e, this]; simp [T.stat]
    · cases h; rfl

/-- The frames the counter keeps. -/
def keep (S : List Fr) : List Fr := S.filter fun f => !f.rest.isEmpty

/-- The position the counter stores for a frame. -/
def Fr.cpos (f : Fr) : Word × Nat := (wordOf f.b f.t, cnt f.big f.ch - f.rest.length)

/-- A statistic over the rounds still to do for a frame. -/
def Fr.stat (w : Nat → Nat → Nat) (f : Fr) : Nat := (1 + again f.ch f.rest) * w f.pfx.length (cnt f.big f.ch) + statAt w f.ch f.rest

theorem keep_cons {S : List Fr} {p b t} {b0 t0} (hz : Zip b0 t0 S p b t) : ∀ {f F}, keep S = f :: F →
    ∃ S' p', Zip b0 t0 S' p' f.b f.t ∧ (∃ pre, slotsOf f.big f.ch = pre ++ f.rest) ∧ F = keep S' ∧ wtS S' + f.wt ≤ wtS S := by
  induction S generalizing p b t with
  | nil => intro f F h; cases h
  | cons g S ih =>
    intro f F h
    obtain ⟨⟨p', hz'⟩, hs, -⟩ := hz.top
    unfold keep at h
    rw [List.filter_cons] at h
    split at h
    · cases h
      exact ⟨S, p', hz', hs, rfl, by rw [wtS_cons]; omega⟩
    · obtain ⟨S', p'', h1, h2, h3, h4⟩ := ih hz' h
      exact ⟨S', p'', h1, h2, h3, by rw [wtS_cons]; omega⟩

/-- What the counter adds up besides leaves and nodes: `φ` is a statistic that grows by `w` with every visit. -/
structure Stat (φ : Counter → Nat) (w : Nat → Nat → Nat) : Prop where
  visit : ∀ c plen count, plen < 2 ^ 64 → φ (c.visit (min plen 255) plen (prefixSlots plen) count) = φ c + w plen count
  other : ∀ (c c' : Counter), c.nodesWithPrefix = c'.nodesWithPrefix → c.nodeSizes = c'.nodeSizes →
    c.totalPrefixLength = c'.totalPrefixLength → c.totalPrefixBytes = c'.totalPrefixBytes → c.largePrefixes = c'.largePrefixes →
    φ c = φ c'

/-- The leaves, nodes and statistics left over. -/
def leavesK (S : List Fr) : Nat := ((keep S).map fun f => f.rem.length).sum
def nodesK (S : List Fr) : Nat := ((keep S).map fun f => nodesAt f.ch f.rest).sum
def statK (w : Nat → Nat → Nat) (S : List Fr) : Nat := ((keep S).map fun f => f.stat w).sum

theorem countLoop_tree {P st b0 t0 q0} (hh : Held P st t0 q0) : ∀ (fuel : Nat) {S p b n pfx big ch pre cs} (c : Counter),
    Zip b0 t0 S p b (.node n pfx big ch) → slotsOf big ch = pre ++ cs → 2 * nodesAt ch cs + wtS S < fuel →
    c.raw = wordOf b (.node n pfx big ch) → c.nextChild = pre.length → c.stack = (keep S).map Fr.cpos →
    ∃ c', countLoop st fuel c = .ok c' ∧ c'.leaves = c.leaves + (leavesAt ch cs).length + leavesK S ∧
      c'.nodes = c.nodes + nodesAt ch cs + nodesK S ∧
      ∀ φ w, Stat φ w → φ c' = φ c + (1 + again ch cs) * w pfx.length (cnt big ch) + statAt w ch cs + statK w S := by
  intro fuel
  induction fuel with
  | zero => intro S p b n pfx big ch pre cs c _ _ h; omega
  | succ fuel ih =>
    intro S p b n pfx big ch pre cs c hz hs hfuel hraw hnc hst
    have hv := hh.kids_view hz
    have hcs := cnt_split hs
    rcases hg : scanG ch cs with ⟨l, r⟩
    have hk := hv.scanKids hs
    rw [hg] at hk
    have hl := scanG_leaves hg
    have hn := scanG_nodes hg
    have ha := scanG_again hg
    have hsa := fun w => scanG_stat (w := w) hg
    have hvis : ∀ (x : Counter) (i j k m : Nat), (x.visit i j k m).nextChild = x.nextChild ∧ (x.visit i j k m).leaves = x.leaves ∧
        (x.visit i j k m).nodes = x.nodes ∧ (x.visit i j k m).stack = x.stack ∧ (x.visit i j k m).raw = x.raw := by
      intro x i j k m
      unfold Counter.visit
      split <;> exact ⟨rfl, rfl, rfl, rfl, rfl⟩
    unfold countLoop
    rw [hraw, hv.addr, nodeData_view hv]
    simp only [bind, Except.bind]
    rw [hv.skip]
    simp only
    rw [hv.count, hv.plen]
    obtain ⟨hv1, hv2, hv3, hv4, hv5⟩ := hvis c (min pfx.length 255) pfx.length (prefixSlots pfx.length) (cnt big ch)
    have hφ : ∀ φ w, Stat φ w → φ (c.visit (min pfx.length 255) pfx.length (prefixSlots pfx.length) (cnt big ch)) =
        φ c + w pfx.length (cnt big ch) := fun φ w h => h.visit c _ _ hv.pfx_lt
    generalize c.visit (min pfx.length 255) pfx.length (prefixSlots pfx.length) (cnt big ch) = c1 at hv1 hv2 hv3 hv4 hv5 hφ
    rw [hv1, hnc, show cnt big ch - pre.length = cs.length by omega, hk]
    cases r with
    | some x =>
      obtain ⟨d, rest⟩ := x
      obtain ⟨pre', e, hnode⟩ := scanG_suffix hg
      have hs' : slotsOf big ch = (pre ++ pre') ++ d :: rest := by rw [hs, e, List.append_assoc]
      have hc' := cnt_split hs'
      simp only [List.length_cons] at hc'
      simp only [Option.map_some]
      rw [show cnt big ch - (rest.length + 1) = (pre ++ pre').length by omega, hv.afterKid hs']
      simp only
      cases hck : ch d with
      | empty => rw [hck] at hnode; cases hnode
      | leaf => rw [hck] at hnode; cases hnode
      | node n2 pfx2 big2 ch2 =>
        have hz' := Zip.cons hz hs'
        rw [hck] at hz'
        have hle : (skipEmpty ch rest).length ≤ rest.length := (skipEmpty_suffix ch rest).length_le
        simp only at hl hn ha hsa
        rw [hck] at hl hn
        have hn2 := nodesAt_slotsOf n2 pfx2 big2 ch2
        have hw : ((⟨b, n, pfx, big, ch, skipEmpty ch rest⟩ : Fr)).wt = 1 + 2 * nodesAt ch rest := by
          simp only [Fr.wt, nodesAt_skipEmpty]
        have hl2 := leavesAt_slotsOf n2 pfx2 big2 ch2
        have hkeep : keep (⟨b, n, pfx, big, ch, skipEmpty ch rest⟩ :: S) =
            if skipEmpty ch rest ≠ [] then ⟨b, n, pfx, big, ch, skipEmpty ch rest⟩ :: keep S else keep S := by
          unfold keep
          rw [List.filter_cons]
          cases hse : skipEmpty ch rest <;> simp
        have hlk : leavesK (⟨b, n, pfx, big, ch, skipEmpty ch rest⟩ :: S) = (leavesAt ch rest).length + leavesK S := by
          unfold leavesK
          rw [hkeep, ← leavesAt_skipEmpty ch rest]
          by_cases hse : skipEmpty ch rest = []
          · rw [if_neg (by simp [hse]), hse]; simp
          · rw [if_pos hse]; simp [Fr.rem]
        have hnk : nodesK (⟨b, n, pfx, big, ch, skipEmpty ch rest⟩ :: S) = nodesAt ch rest + nodesK S := by
          unfold nodesK
          rw [hkeep, ← nodesAt_skipEmpty ch rest]
          by_cases hse : skipEmpty ch rest = []
          · rw [if_neg (by simp [hse]), hse]; simp
          · rw [if_pos hse]; simp
        have hsk : ∀ w, statK w (⟨b, n, pfx, big, ch, skipEmpty ch rest⟩ :: S) =
            ((if skipEmpty ch rest ≠ [] then 1 else 0) + again ch rest) * w pfx.length (cnt big ch) + statAt w ch rest + statK w S := by
          intro w
          unfold statK
          rw [hkeep, ← again_skipEmpty ch rest, ← statAt_skipEmpty w ch rest]
          by_cases hse : skipEmpty ch rest = []
          · rw [if_neg (by simp [hse]), if_neg (by simp [hse]), hse]; simp [again]
          · rw [if_pos hse, if_pos hse]; simp [Fr.stat]
        have h1 := ih (pre := []) (cs := slotsOf big2 ch2)
          { c1 with
            leaves := c1.leaves + (vals l).length
            nodes := c1.nodes + 1
            stack := if cnt big ch - (skipEmpty ch rest).length < cnt big ch then
              (c1.raw, cnt big ch - (skipEmpty ch rest).length) :: c1.stack else c1.stack
            raw := wordOf d (T.node n2 pfx2 big2 ch2)
            nextChild := 0 }
          hz' rfl (by rw [wtS_cons, hw]; omega) rfl rfl (by
            rw [hkeep]
            simp only
            by_cases hse : skipEmpty ch rest = []
            · rw [if_neg (by simp [hse]), if_neg (by simp [hse]), hv4, hst]
            · have : 0 < (skipEmpty ch rest).length := List.length_pos_iff.2 hse
              rw [if_pos (by omega), if_pos hse, hv4, hv5, hraw, hst]
              rfl)
        obtain ⟨c', e1, e2, e3, e4⟩ := h1
        refine ⟨c', e1, ?_, ?_, ?_⟩
        · rw [e2, hlk, hl2, hl]
          simp only [List.length_append, vals_length, hv2]
          omega
        · rw [e3, hnk, hn, hn2, hv3]
          simp only
          omega
        · intro φ w hst'
          rw [e4 φ w hst', hsk]
          have hoth := hst'.other (c' := c1) (c := { c1 with
            leaves := c1.leaves + (vals l).length
            nodes := c1.nodes + 1
            stack := if cnt big ch - (skipEmpty ch rest).length < cnt big ch then
              (c1.raw, cnt big ch - (skipEmpty ch rest).length) :: c1.stack else c1.stack
            raw := wordOf d (T.node n2 pfx2 big2 ch2)
            nextChild := 0 }) rfl rfl rfl rfl rfl
          rw [hoth, hφ φ w hst', hsa w, ha, hck, stat_slotsOf]
          rw [Nat.add_mul, Nat.add_mul, Nat.add_mul, Nat.add_mul]
          omega
    | none =>
      simp only [Option.map_none]
      simp only at hl hn ha hsa
      rw [hv4, hst]
      cases hkS : keep S with
      | nil =>
        refine ⟨_, rfl, ?_, ?_, ?_⟩
        · simp only [leavesK, hkS, hv2, vals_length, hl]; simp
        · simp only [nodesK, hkS, hv3, hn]; simp
        · intro φ w hst'
          refine Eq.trans (b := φ c1) (by apply hst'.other <;> rfl) ?_
          rw [hφ φ w hst', ha, hsa w]
          simp [statK, hkS]
      | cons f F =>
        obtain ⟨S', p', hz', ⟨pre', hs'⟩, hF, hwt⟩ := keep_cons hz hkS
        simp only [List.map_cons, Fr.cpos]
        have hc' := cnt_split hs'
        have h1 := ih { c1 with
            leaves := c1.leaves + (vals l).length
            raw := wordOf f.b f.t
            nextChild := cnt f.big f.ch - f.rest.length
            stack := F.map Fr.cpos } hz' hs' (by
              have : f.wt = 1 + 2 * nodesAt f.ch f.rest := rfl
              omega) rfl (by simp only; omega) (by simp only; rw [hF])
        obtain ⟨c', e1, e2, e3, e4⟩ := h1
        refine ⟨c', e1, ?_, ?_, ?_⟩
        · rw [e2]
          simp only [leavesK, hkS, hF, hv2, vals_length, hl, List.map_cons, List.sum_cons, Fr.rem]
          simp
          omega
        · rw [e3]
          simp only [nodesK, hkS, hF, hv3, hn, List.map_cons, List.sum_cons]
          omega
        · intro φ w hst'
          rw [e4 φ w hst']
          have hoth := hst'.other (c' := c1) (c := { c1 with
            leaves := c1.leaves + (vals l).length
            raw := wordOf f.b f.t
            nextChild := cnt f.big f.ch - f.rest.length
            stack := F.map Fr.cpos }) rfl rfl rfl rfl rfl
          rw [hoth, hφ φ w hst', ha, hsa w]
          simp only [statK, hkS, hF, List.map_cons, List.sum_cons, Fr.stat]
          omega

/-- `Count` of the subtree `t0`. -/
theorem count_tree {P st b0 t0 q0 d} {sp : Key} (hh : Held P st t0 q0) (hps : partialSearch st sp = .ok (wordOf b0 t0, d))
    {fuel : Nat} (hfuel : 2 * t0.nodes < fuel) :
    ∃ c, count st fuel sp = .ok c ∧ c.leaves = t0.leaves.length ∧ c.nodes = t0.nodes ∧
      ∀ φ w, Stat φ w → φ c = φ { raw := 0 } + t0.stat w := by
  unfold count
  simp only [bind, Except.bind]
  rw [hps]
  simp only
  rw [hh.isLeaf]
  cases ht0 : t0 with
  | empty =>
    rw [if_pos (by rfl)]
    exact ⟨_, rfl, rfl, rfl, fun φ w h => h.other _ _ rfl rfl rfl rfl rfl⟩
  | leaf k v =>
    rw [if_neg (by rw [← ht0, hh.zero, ht0]; simp)]
    simp only [T.isLf, if_true]
    exact ⟨_, rfl, rfl, rfl, fun φ w h => h.other _ _ rfl rfl rfl rfl rfl⟩
  | node n pfx big ch =>
    rw [if_neg (by rw [← ht0, hh.zero, ht0]; simp)]
    simp only [T.isLf, Bool.false_eq_true, if_false]
    rw [ht0] at hh hfuel
    have hn := nodesAt_slotsOf n pfx big ch
    obtain ⟨c, e1, e2, e3, e4⟩ := countLoop_tree hh fuel (b0 := b0) (pre := []) (cs := slotsOf big ch)
      { raw := wordOf b0 (T.node n pfx big ch), nodes := 1 } .nil rfl (by rw [wtS_nil]; omega) rfl rfl rfl
    refine ⟨c, e1, ?_, ?_, ?_⟩
    · rw [e2, leavesAt_slotsOf n pfx]; simp [leavesK, keep]
    · rw [e3, hn]; simp [nodesK, keep]
    · intro φ w h
      rw [e4 φ w h, stat_slotsOf, h.other (c' := { raw := 0 }) (c := { raw := wordOf b0 (T.node n pfx big ch), nodes := 1 }) rfl rfl rfl rfl rfl]
      simp [statK, keep, Nat.add_assoc]

end Radix
