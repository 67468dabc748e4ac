import Verif.Properties.Sequence
/-!
# Trees with more keys than an iterator fetches at once

The keys "a", "c", and "b" followed by any byte.  Without "c", the tree has a root with the leaf of "a" and a child node with 256
leaves.
-/
set_option autoImplicit false
namespace Radix
open T

/-! ## The keys -/

/-- The keys "a", "c" and "b?". -/
def wideEnv : Env where
  keys k := k = [97] ∨ k = [99] ∨ ∃ c : UInt8, k = [98, c]
  fetch v := if v.toNat < 256 then [98, v.toUInt8] else if v.toNat = 256 then [97] else [99]
  ne {k} h := by rcases h with rfl | rfl | ⟨c, rfl⟩ <;> simp
  len {k} h := by rcases h with rfl | rfl | ⟨c, rfl⟩ <;> simp
  free {k k'} h h' hp := by
    rcases h with rfl | rfl | ⟨c, rfl⟩ <;> rcases h' with rfl | rfl | ⟨c', rfl⟩ <;> simp_all

/-- Store all keys but "c": the value of "b?" is its last byte, the value of "a" is 256. -/
def widePuts : List MapOp := .put 0 [97] 256 :: allBytes.map fun c => .put 0 [98, c] c.toUInt64

/-- The map afterwards. -/
def wideMap : Map := widePuts.foldl MapOp.apply fun _ => none

theorem trunc55_byte (c : UInt8) : trunc55 c.toUInt64 = c.toUInt64 := by
  have h : allBytes.all (fun c => trunc55 c.toUInt64 == c.toUInt64) = true := by decide +kernel
  exact eq_of_beq (List.all_eq_true.1 h c (mem_allBytes c))

theorem wide_fetch (c : UInt8) : wideEnv.fetch c.toUInt64 = [98, c] := by
  have h1 : c.toUInt64.toNat < 256 := by simpa using c.toNat_lt
  simp only [wideEnv]
  rw [if_pos h1]
  simp

theorem validOps_puts {env : Env} {n : Nat} : ∀ {ops : List MapOp} {M : Map},
    (∀ op ∈ ops, ∃ a k v, op = .put a k v ∧ a < n ∧ env.keys k ∧ env.fetch (trunc55 v) = k) → ValidOps env n M ops
  | [], _, _ => trivial
  | op :: ops, M, h => by
    obtain ⟨a, k, v, rfl, h1⟩ := h op (by simp)
    exact ⟨h1, validOps_puts fun op' h' => h op' (by simp [h'])⟩

theorem wide_valid {n : Nat} (hn : 0 < n) (M : Map) : ValidOps wideEnv n M widePuts := by
  refine validOps_puts fun op h => ?_
  rcases List.mem_cons.1 h with rfl | h
  · exact ⟨0, [97], 256, rfl, hn, .inl rfl, by decide +kernel⟩
  · obtain ⟨c, _, rfl⟩ := List.mem_map.1 h
    exact ⟨0, [98, c], _, rfl, hn, .inr (.inr ⟨c, rfl⟩), by rw [trunc55_byte, wide_fetch]⟩

theorem foldl_puts_b {M : Map} : ∀ (cs : List UInt8), cs.Nodup → ∀ k,
    (cs.map fun c => MapOp.put 0 [98, c] c.toUInt64).foldl MapOp.apply M k =
      match k with
      | [98, c] => if c ∈ cs then some c.toUInt64 else M k
      | _ => M k := by
  intro cs
  induction cs generalizing M with
  | nil => intro _ k; simp only [List.map_nil, List.foldl_nil, List.not_mem_nil, if_false]; split <;> rfl
  | cons d cs ih =>
    intro hn k
    rw [List.map_cons, List.foldl_cons, ih (List.nodup_cons.1 hn).2]
    simp only [MapOp.apply, trunc55_byte]
    split
    · rename_i c
      by_cases h1 : c ∈ cs
      · rw [if_pos h1, if_pos (List.mem_cons_of_mem _ h1)]
      · rw [if_neg h1]
        by_cases h2 : c = d
        · subst h2; simp
        · rw [upd_of_ne _ _ (by simp [h2]), if_neg (by simp [h1, h2])]
    · rename_i hk
      exact upd_of_ne _ _ (hk d)

theorem wideMap_eq (k : Key) : wideMap k = match k with
    | [98, c] => some c.toUInt64
    | k => if k = [97] then some 256 else none := by
  unfold wideMap widePuts
  rw [List.foldl_cons, foldl_puts_b _ allBytes_nodup]
  split
  · rw [if_pos (mem_allBytes _)]
  · simp only [MapOp.apply]
    by_cases h : k = [97]
    · subst h
      rw [upd_same, if_pos rfl]
      decide +kernel
    · rw [upd_of_ne _ _ h, if_neg h]

/-! ## The tree -/

/-- The children of the root. -/
def wideKid (c : UInt8) : T :=
  if c = 97 then .leaf [97] 256 else if c = 98 then .node 0 [] true fun d => .leaf [98, d] d.toUInt64 else .empty

/-- The shape of the tree. -/
def wideTree : T := .node 0 [] false wideKid

theorem wideKid_a : wideKid 97 = .leaf [97] 256 := rfl
theorem wideKid_b : wideKid 98 = .node 0 [] true fun d => .leaf [98, d] d.toUInt64 := rfl

theorem wideKid_cases (c : UInt8) : c = 97 ∨ c = 98 ∨ wideKid c = .empty := by
  unfold wideKid
  by_cases h1 : c = 97
  · exact .inl h1
  · by_cases h2 : c = 98
    · exact .inr (.inl h2)
    · rw [if_neg h1, if_neg h2]; exact .inr (.inr rfl)

theorem cntOf_true : cntOf (fun _ : UInt8 => true) = 256 := by decide +kernel

theorem wideTree_kids : kidsOf (present wideKid) = [97, 98] := by
  have : present wideKid = fun c => c = 97 || c = 98 := by
    funext c
    unfold present wideKid
    by_cases h1 : c = 97
    · simp [h1, T.isEmpty]
    · by_cases h2 : c = 98 <;> simp [h1, h2, T.isEmpty]
  rw [this]
  decide +kernel

theorem wideTree_dense : wideTree.Dense := by
  unfold wideTree T.Dense
  refine ⟨fun h => (by cases h), fun c => ?_⟩
  rcases wideKid_cases c with rfl | rfl | h
  · trivial
  · rw [wideKid_b]
    unfold T.Dense
    refine ⟨fun _ => ?_, fun _ => trivial⟩
    have : (present fun d : UInt8 => T.leaf [98, d] d.toUInt64) = fun _ => true := rfl
    rw [this, cntOf_true]; omega
  · rw [h]; trivial

theorem wideMap_b (d : UInt8) : wideMap [98, d] = some d.toUInt64 := (wideMap_eq _).trans rfl
theorem wideMap_a : wideMap [97] = some 256 := (wideMap_eq _).trans rfl

theorem wideTree_wf : wideTree.WF (fun k v => wideMap k = some v) [] := by
  unfold wideTree T.WF
  refine ⟨⟨by decide, [98, 0], _, 98, wideMap_b 0, by simp⟩, fun _ => ?_, fun c => ?_⟩
  · unfold cntOf
    rw [wideTree_kids]; decide
  rcases wideKid_cases c with rfl | rfl | h
  · exact ⟨by simp, wideMap_a⟩
  · rw [wideKid_b]
    unfold T.WF
    exact ⟨⟨by decide, [98, 0], _, 0, wideMap_b 0, by simp⟩, fun h => (by cases h), fun d => ⟨by simp, wideMap_b d⟩⟩
  · rw [h]; trivial

theorem wideTree_has (k : Key) (v : Word) : wideTree.Has k v ↔ wideMap k = some v := by
  constructor
  · rintro ⟨c, h⟩
    rcases wideKid_cases c with rfl | rfl | h'
    · obtain ⟨rfl, rfl⟩ := h; exact wideMap_a
    · obtain ⟨d, rfl, rfl⟩ := h; exact wideMap_b d
    · rw [h'] at h; cases h
  · rw [wideMap_eq]
    intro h
    split at h
    · rename_i d
      exact ⟨98, d, rfl, Option.some.inj h⟩
    · split at h
      · rename_i hk
        exact ⟨97, hk.symm, Option.some.inj h⟩
      · cases h

/-- A tree with these keys that was built without deletes has this shape. -/
theorem wide_shape {P : Key → Word → Prop} {t : T} (hd : t.Dense) (hwf : t.WF P []) (hh : ∀ k v, t.Has k v ↔ wideMap k = some v) :
    ∃ n ch n2 ch2 k v, t = .node n [] false ch ∧ kidsOf (present ch) = [97, 98] ∧ ch 97 = .leaf k v ∧ ch 98 = .node n2 [] true ch2 ∧
      ∀ c, (ch2 c).isLf = true := by
  have he := hd.erase_eq hwf wideTree_dense wideTree_wf (fun k => by simp only [hh, wideTree_has])
  cases t with
  | empty => cases he
  | leaf => cases he
  | node n pfx big ch =>
    simp only [T.erase, wideTree, T.node.injEq, true_and] at he
    obtain ⟨rfl, rfl, he⟩ := he
    have h0 := fun c => congrFun he c
    have h97 := h0 97
    have h98 := h0 98
    rw [wideKid_a] at h97
    rw [wideKid_b] at h98
    have hk : kidsOf (present ch) = [97, 98] := by
      rw [← present_erase ch, he, present_erase]
      exact wideTree_kids
    cases hc97 : ch 97 with
    | empty => rw [hc97] at h97; cases h97
    | node => rw [hc97] at h97; cases h97
    | leaf k v =>
      cases hc98 : ch 98 with
      | empty => rw [hc98] at h98; cases h98
      | leaf => rw [hc98] at h98; cases h98
      | node n2 pfx2 big2 ch2 =>
        rw [hc98] at h98
        simp only [T.erase, T.node.injEq, true_and] at h98
        obtain ⟨rfl, rfl, h98⟩ := h98
        refine ⟨n, ch, n2, ch2, k, v, rfl, hk, hc97, hc98, fun c => ?_⟩
        have := congrFun h98 c
        cases hc : ch2 c with
        | empty => rw [hc] at this; cases this
        | leaf => rfl
        | node => rw [hc] at this; cases this

/-- The state after storing all keys. -/
theorem wide_stateN {n : Nat} (hn : 0 < n) : ∃ s σ, Performs wideEnv.fetch (Sys.new n) widePuts s ∧ Run wideEnv SerialInserts s σ ∧
    (∀ b, s.proc b = .idle) ∧ σ.map = wideMap ∧ s.st.baNext ≤ 514 ∧ s.st.nalloc = n := by
  have hlen : widePuts.length = 257 := by simp [widePuts, allBytes]
  rcases ops_alone (env := wideEnv) (G := SerialInserts) (R := Run wideEnv SerialInserts) Run.step (fun _ _ h1 h2 => ⟨h1, h2⟩) (fun _ _ h => h.serialInserts.insertOnly_calm) widePuts
    (.inr (by simp [widePuts, MapOp.isPut])) (Run.init n) (fun _ => rfl) (wide_valid hn _) with
    ⟨s, σ, h1, h2, h3, h4, h5, h6⟩ | ⟨done, op, rest, s, k, s1, h1, h2, h3, h4⟩
  · refine ⟨s, σ, h1, h2, h3, h4, ?_, h6⟩
    rw [hlen] at h5
    exact h5
  · exfalso
    rcases h4 with ⟨_, h5, h6⟩ | ⟨h4, _⟩
    · have h7 : (Sys.new n).st.baNext = 0 := rfl
      rw [h1] at hlen
      simp only [List.length_append, List.length_cons] at hlen
      unfold maxBlockCount at h5
      omega
    · refine h4 fun k hk => ?_
      rcases hk with rfl | rfl | ⟨c, rfl⟩ <;> simp

theorem wide_state : ∃ s σ, Performs wideEnv.fetch (Sys.new 1) widePuts s ∧ Run wideEnv SerialInserts s σ ∧ (∀ b, s.proc b = .idle) ∧
    σ.map = wideMap ∧ s.st.baNext ≤ 514 ∧ s.st.nalloc = 1 := wide_stateN (by decide)

/-! ## Iterating -/

theorem scanG_all {ch : UInt8 → T} : ∀ {cs : List UInt8}, (∀ c ∈ cs, (ch c).isLf = true) →
    (scanG ch cs).1.length = cs.length ∧ (scanG ch cs).2 = none
  | [], _ => ⟨rfl, rfl⟩
  | c :: cs, h => by
    have h1 := h c (by simp)
    have ih := scanG_all fun c' h' => h c' (List.mem_cons_of_mem _ h')
    cases hc : ch c with
    | empty => rw [hc] at h1; cases h1
    | node => rw [hc] at h1; cases h1
    | leaf => simp [scanG, hc, ih.1, ih.2]

theorem leavesAt_all {ch : UInt8 → T} (h : ∀ c, (ch c).isLf = true) : (leavesAt ch (slotsOf true ch)).length = 256 := by
  have h1 := scanG_all (ch := ch) (cs := slotsOf true ch) fun c _ => h c
  rw [length_slotsOf] at h1
  rcases hg : scanG ch (slotsOf true ch) with ⟨l, r⟩
  rw [hg] at h1
  obtain ⟨h2, rfl⟩ := h1
  have h3 := scanG_leaves hg
  simp only [List.append_nil] at h3
  rw [h3]
  exact h2

/-- A round of the scan that goes down. -/
theorem scanLoop_down {P st b0 t0 q0} (hh : Held P st t0 q0) (fuel : Nat) {S p b n pfx big ch l c rest} (pf : List Word)
    (hz : Zip b0 t0 S p b (.node n pfx big ch)) (hg : scanG ch (slotsOf big ch) = (l, some (c, rest))) :
    scanLoop st (fuel + 1) (wordOf b (.node n pfx big ch)) 0 (S.map Fr.pos) pf =
      scanLoop st fuel (wordOf c (ch c)) 0 (((⟨b, n, pfx, big, ch, skipEmpty ch rest⟩ : Fr) :: S).map Fr.pos) (pf ++ vals l) ∧
    ∃ pre, slotsOf big ch = pre ++ c :: rest := by
  have hv := hh.kids_view hz
  have hk := hv.scanKids (pre := []) (cs := slotsOf big ch) rfl
  obtain ⟨pre, hs, hnode⟩ := scanG_suffix hg
  have hc := cnt_split hs
  simp only [List.length_cons] at hc
  rw [length_slotsOf, hg] at hk
  have hk' : Radix.scanKids st.mem ⟨n + prefixSlots pfx.length, blockSlots - n % blockSlots - prefixSlots pfx.length⟩ (cnt big ch) 0 = _ := hk
  refine ⟨?_, pre, hs⟩
  have hle : (skipEmpty ch rest).length ≤ rest.length := (skipEmpty_suffix ch rest).length_le
  have hpos : Fr.pos ⟨b, n, pfx, big, ch, skipEmpty ch rest⟩ =
      ⟨wordOf b (.node n pfx big ch), cnt big ch - (skipEmpty ch rest).length,
        decide (cnt big ch - (skipEmpty ch rest).length < cnt big ch)⟩ := by
    unfold Fr.pos Fr.t
    congr 1
    cases hse : skipEmpty ch rest with
    | nil => simp
    | cons x y =>
      rw [hse] at hle
      simp only [List.length_cons] at hle
      simp only [List.isEmpty_cons, Bool.not_false, List.length_cons]
      exact (decide_eq_true (by omega)).symm
  rw [List.map_cons, hpos]
  conv => lhs; unfold scanLoop
  rw [hv.addr, nodeData_view hv]
  simp only [bind, Except.bind]
  rw [hv.skip]
  simp only
  rw [hv.count, Nat.sub_zero, hk']
  simp only [Option.map_some]
  rw [show cnt big ch - (rest.length + 1) = pre.length by omega, hv.afterKid hs]

/-- A round of the scan that ends the call. -/
theorem scanLoop_stop {P st b0 t0 q0} (hh : Held P st t0 q0) (fuel : Nat) {S p b n pfx big ch l} (pf : List Word)
    (hz : Zip b0 t0 S p b (.node n pfx big ch)) (hg : scanG ch (slotsOf big ch) = (l, none)) (hS : S ≠ [])
    (hlen : prefetchLength < (pf ++ vals l).length) :
    scanLoop st (fuel + 1) (wordOf b (.node n pfx big ch)) 0 (S.map Fr.pos) pf =
      (storeResume st (S.map Fr.pos)).map fun key => (pf ++ vals l, some key) := by
  have hv := hh.kids_view hz
  have hk := hv.scanKids (pre := []) (cs := slotsOf big ch) rfl
  rw [length_slotsOf, hg] at hk
  have hk' : Radix.scanKids st.mem ⟨n + prefixSlots pfx.length, blockSlots - n % blockSlots - prefixSlots pfx.length⟩ (cnt big ch) 0 = _ := hk
  conv => lhs; unfold scanLoop
  rw [hv.addr, nodeData_view hv]
  simp only [bind, Except.bind]
  rw [hv.skip]
  simp only
  rw [hv.count, Nat.sub_zero, hk']
  simp only [Option.map_none]
  cases S with
  | nil => exact absurd rfl hS
  | cons f S =>
    simp only [List.map_cons]
    rw [if_pos hlen]
    cases storeResume st (f.pos :: S.map Fr.pos) <;> rfl

/-- Calls that return fetched values, and one more. -/
theorem Iter.run_fetched {st : St} {fuel : Nat} : ∀ (n : Nat) {it : Iter} {r : List (Option Word)}, it.pp + n ≤ it.prefetched.length →
    Iter.run st fuel (n + 1) it = .ok r →
    ∃ v ok it', Iter.next st fuel { it with pp := it.pp + n, value := v } = .ok (ok, it') ∧ r[n]? = some (if ok then some it'.value else none)
  | 0, it, r, _, h => by
    unfold Iter.run at h
    simp only [bind, Except.bind] at h
    cases hn : it.next st fuel with
    | error e => rw [hn] at h; cases h
    | ok x =>
      obtain ⟨ok, it'⟩ := x
      rw [hn] at h
      simp only [Iter.run, pure, Except.pure] at h
      refine ⟨it.value, ok, it', hn, ?_⟩
      rw [← Except.ok.inj h]; rfl
  | n + 1, it, r, hle, h => by
    have hlt : it.pp < it.prefetched.length := by omega
    have hn : it.next st fuel = .ok (true, { it with value := it.prefetched[it.pp], pp := it.pp + 1 }) := by
      unfold Iter.next
      rw [List.getElem?_eq_getElem hlt]
    unfold Iter.run at h
    simp only [bind, Except.bind] at h
    rw [hn] at h
    simp only at h
    cases h2 : Iter.run st fuel (n + 1) { it with value := it.prefetched[it.pp], pp := it.pp + 1 } with
    | error e => rw [h2] at h; cases h
    | ok r' =>
      rw [h2] at h
      simp only [pure, Except.pure] at h
      have h3 := Iter.run_fetched n (by show it.pp + 1 + n ≤ it.prefetched.length; omega) h2
      obtain ⟨v, ok, it', h4, h5⟩ := h3
      refine ⟨v, ok, it', ?_, ?_⟩
      · simp only [] at h4
        rw [show it.pp + (n + 1) = it.pp + 1 + n by omega]
        exact h4
      · rw [← Except.ok.inj h, List.getElem?_cons_succ]; exact h5

/-- A scan that has a leaf to find does not return nothing. -/
theorem scanLoop_some {P st b0 t0 q0} (hh : Held P st t0 q0) {fuel : Nat} {S p b n pfx big ch pre cs}
    (hz : Zip b0 t0 S p b (.node n pfx big ch)) (hs : slotsOf big ch = pre ++ cs) (hf : 2 * nodesAt ch cs + wtS S < fuel)
    (hne : leavesAt ch cs ≠ []) {res} : scanLoop st fuel (wordOf b (.node n pfx big ch)) pre.length (S.map Fr.pos) [] ≠ .ok ([], res) := by
  intro he
  rcases scanLoop_tree hh fuel [] hz hs hf with h | ⟨S', p', b', t', pf', _, _, _, h1, _, h2⟩
  · rw [h] at he
    have := congrArg Prod.fst (Except.ok.inj he)
    simp only [List.nil_append, vals_append, List.append_eq_nil_iff] at this
    have h3 : (vals (leavesAt ch cs)).length = 0 := by rw [this.1]; rfl
    rw [vals_length] at h3
    exact hne (List.length_eq_zero_iff.1 h3)
  · rw [h2] at he
    cases h3 : storeResume st (S'.map Fr.pos) with
    | error => rw [h3] at he; cases he
    | ok key =>
      rw [h3] at he
      have := congrArg Prod.fst (Except.ok.inj he)
      simp only at this
      rw [this] at h1
      cases h1

/-- In the tree of the example, an iterator that stored a one-byte position goes on with some value. -/
theorem wide_restarts {P st t b0 n ch n2 ch2 k v} (hh : Held P st t []) (ht : t = .node n [] false ch) (hk : kidsOf (present ch) = [97, 98])
    (h97 : ch 97 = .leaf k v) (h98 : ch 98 = .node n2 [] true ch2) (hlf : ∀ c, (ch2 c).isLf = true) (hroot : st.root = wordOf b0 t)
    {fuel : Nat} (hf : 2 * t.nodes < fuel) {it : Iter} (hsp : it.searchPrefix = []) (hd : it.done = false) {x : UInt8}
    (hx : it.resumeAt = [x]) (hp : it.prefetched.length ≤ it.pp) {ok : Bool} {it' : Iter} (hn : it.next st fuel = .ok (ok, it')) : ok = true := by
  have hs : slotsOf false ch = [97, 98] := hk
  subst ht
  have hz : Zip b0 (.node n [] false ch) [] [] b0 (.node n [] false ch) := .nil
  have hw := hz.weight
  rw [nodesAt_slotsOf] at hf
  have hv := hh.view b0
  have hcnt : cnt false ch = 2 := by rw [← length_slotsOf, hs]; rfl
  have hne97 : leavesAt ch [97, 98] ≠ [] := by rw [leavesAt_cons, h97]; simp [T.leaves]
  have h2leaves : leavesAt ch2 (slotsOf true ch2) ≠ [] := by
    intro h
    have := leavesAt_all hlf
    rw [h] at this
    cases this
  unfold Iter.next at hn
  rw [List.getElem?_eq_none hp] at hn
  simp only at hn
  rw [hd, hsp, hx] at hn
  have hst : Iter.start st [] = .ok (wordOf b0 (.node n [] false ch), 0) := by rw [← hroot]; rfl
  simp only [Bool.false_eq_true, if_false, bind, Except.bind] at hn
  rw [hst] at hn
  simp only at hn
  rw [hh.isLeaf, if_neg (by rw [hh.zero]; simp), if_neg (by simp [T.isLf])] at hn
  -- the walk along the stored position, and the scan
  have key : ∃ raw nc stack, seekLoop st [x] ([x].length + 1) 0 (wordOf b0 (.node n [] false ch)) [] = .ok (raw, nc, stack) ∧
      ∀ res, scanLoop st fuel raw nc stack [] ≠ .ok ([], res) := by
    by_cases hxe : (ch x).isEmpty = true
    · refine ⟨wordOf b0 (.node n [] false ch), 0, [], ?_, fun res => ?_⟩
      · unfold seekLoop
        rw [if_pos (by simp), hv.addr, nodeData_view hv]
        simp only [bind, Except.bind]
        rw [hv.skip]
        simp only
        rw [if_neg (by simp)]
        have : keyAt [x] (0 + ([] : List UInt8).length) = .ok x := rfl
        rw [this]
        simp only
        rw [if_neg (by rw [hv.big_iff]; simp), hv.count, hv.wordsAll rfl, hs]
        simp only
        have hfi : ([97, 98].map fun c => wordOf c (ch c)).findIdx? (fun a => decide (keyByte a = x)) = none := by
          rw [List.findIdx?_eq_none_iff]
          intro a ha
          obtain ⟨c, hc, rfl⟩ := List.mem_map.1 ha
          have hce : (ch c).isEmpty = false := by
            rcases List.mem_cons.1 hc with rfl | hc
            · rw [h97]; rfl
            · rw [List.mem_singleton.1 hc, h98]; rfl
          rw [hv.keyByte_kid c (present_eq_true.2 hce)]
          simp only [decide_eq_false_iff_not]
          rintro rfl
          rw [hce] at hxe; cases hxe
        rw [hfi]
        rfl
      · exact scanLoop_some hh hz (pre := []) (cs := slotsOf false ch) rfl (by simp only [wtS_nil]; omega) (by rw [hs]; exact hne97)
    · have hxe' : (ch x).isEmpty = false := by simpa using hxe
      have hxs : x ∈ slotsOf false ch := mem_slotsOf.2 (.inr hxe')
      rw [hs] at hxs
      have hx2 : x = 97 ∨ x = 98 := by simpa using hxs
      rcases hx2 with rfl | rfl
      · refine ⟨wordOf b0 (.node n [] false ch), 0, [], ?_, fun res => ?_⟩
        · have := seekLoop_step hv (pre := []) (c := 97) (rest := [98]) hs hxe' [] [] 1 []
          rw [h97, if_pos (by rfl)] at this
          exact this
        · exact scanLoop_some hh hz (pre := []) (cs := slotsOf false ch) rfl (by simp only [wtS_nil]; omega) (by rw [hs]; exact hne97)
      · have hz2 := Zip.cons hz (pre := [97]) (c := 98) (rest := []) hs
        rw [h98] at hz2
        refine ⟨wordOf 98 (.node n2 [] true ch2), 0, [(⟨b0, n, [], false, ch, skipEmpty ch []⟩ : Fr)].map Fr.pos, ?_, fun res => ?_⟩
        · have := seekLoop_step hv (pre := [97]) (c := 98) (rest := []) hs hxe' [] [] 1 []
          rw [h98, if_neg (by simp [T.isLf])] at this
          exact this
        · have hw2 := hz2.weight
          rw [nodesAt_slotsOf n2 [] true ch2] at hw2
          rw [nodesAt_slotsOf] at hw2
          exact scanLoop_some hh hz2 (pre := []) (cs := slotsOf true ch2) rfl (by omega) h2leaves
  obtain ⟨raw, nc, stack, h1, h2⟩ := key
  rw [h1] at hn
  simp only at hn
  cases h3 : scanLoop st fuel raw nc stack [] with
  | error e => rw [h3] at hn; cases hn
  | ok y =>
    obtain ⟨pf, res⟩ := y
    rw [h3] at hn
    simp only at hn
    cases pf with
    | nil => exact absurd h3 (h2 res)
    | cons w ws => exact (congrArg Prod.fst (Except.ok.inj hn)).symm

/-- The first call fetches all values, more than 256, and stores a one-byte position, or panics. -/
theorem wide_first {P st t b0 n ch n2 ch2 k v} (hh : Held P st t []) (ht : t = .node n [] false ch) (hk : kidsOf (present ch) = [97, 98])
    (h97 : ch 97 = .leaf k v) (h98 : ch 98 = .node n2 [] true ch2) (hlf : ∀ c, (ch2 c).isLf = true) (hroot : st.root = wordOf b0 t)
    (fuel : Nat) : (∃ e, (Iter.new []).next st (fuel + 2) = .error e) ∨
      ∃ it x, (Iter.new []).next st (fuel + 2) = .ok (true, it) ∧ it.searchPrefix = [] ∧ it.done = false ∧ it.resumeAt = [x] ∧
        it.prefetched.length = 257 ∧ it.pp = 1 := by
  have hs : slotsOf false ch = [97, 98] := hk
  subst ht
  have hz : Zip b0 (.node n [] false ch) [] [] b0 (.node n [] false ch) := .nil
  have hz2 := Zip.cons hz (pre := [97]) (c := 98) (rest := []) hs
  rw [h98] at hz2
  have hst : Iter.start st (Iter.new []).searchPrefix = .ok (wordOf b0 (.node n [] false ch), 0) := by rw [← hroot]; rfl
  have hg1 : scanG ch (slotsOf false ch) = ([(k, v)], some (98, [])) := by simp [hs, scanG, h97, h98]
  have hall := scanG_all (ch := ch2) (cs := slotsOf true ch2) fun c _ => hlf c
  rw [length_slotsOf] at hall
  rcases hg2 : scanG ch2 (slotsOf true ch2) with ⟨l, r⟩
  rw [hg2] at hall
  obtain ⟨hlen, rfl⟩ := hall
  have hlen' : l.length = 256 := hlen
  have h1 := (scanLoop_down hh (fuel + 1) [] hz hg1).1
  rw [h98] at h1
  have h2 := scanLoop_stop hh fuel ([] ++ vals [(k, v)]) hz2 hg2 (by simp) (by simp [hlen', prefetchLength])
  have h12 := h1.trans h2
  have h3 := resumeLoop_tree hh hz rfl (Fr.pos ⟨b0, n, [], false, ch, skipEmpty ch []⟩).k (Fr.pos ⟨b0, n, [], false, ch, skipEmpty ch []⟩).more []
  have h4 : storeResume st ([(⟨b0, n, [], false, ch, skipEmpty ch []⟩ : Fr)].map Fr.pos) = _ := h3
  rw [h4] at h12
  unfold Iter.next
  have e0 : (Iter.new []).prefetched[(Iter.new []).pp]? = none := rfl
  rw [e0]
  simp only
  have e1 : (Iter.new []).done = false := rfl
  rw [e1]
  simp only [Bool.false_eq_true, if_false, bind, Except.bind]
  rw [hst]
  simp only
  rw [hh.isLeaf, if_neg (by rw [hh.zero]; simp), if_neg (by simp [T.isLf])]
  have e2 : seekLoop st (Iter.new []).resumeAt ((Iter.new []).resumeAt.length + 1) 0 (wordOf b0 (.node n [] false ch)) [] =
      .ok (wordOf b0 (.node n [] false ch), 0, []) := rfl
  rw [e2]
  simp only
  rw [show scanLoop st (fuel + 2) (wordOf b0 (.node n [] false ch)) 0 [] [] = _ from h12]
  simp only [resumeTail]
  cases Slice.get st.mem ⟨n, blockSlots - n % blockSlots⟩ (prefixSlots ([] : List UInt8).length + (Fr.pos ⟨b0, n, [], false, ch, skipEmpty ch []⟩).k) with
  | error e => exact .inl ⟨e, rfl⟩
  | ok a => exact .inr ⟨_, keyByte a, rfl, rfl, rfl, rfl, by simp [vals, hlen'], rfl⟩

/-! ## C14 -/

/-- C14 in full. -/
def C14_statement : Prop :=
  ∀ (env : Env) (s : Sys) (σ : Spec), Run env Serial s σ → ∀ l : List (Key × Word), Listing σ.map [] l →
    ∃ N, ∀ fuel ≥ N, ∀ n, Iter.run s.st fuel n (Iter.new []) = .ok (nextResults l n)

/-- C14 does not hold: with "a" and all keys "b?", 257 of them, stored one after the other, the first 257 calls of `Next` return the values,
but the 258th call does not return false: the iterator has stored a position read from beyond the end of the root node, and starts
again (or a call panics while reading there). -/
theorem C14_does_not_hold : ¬ C14_statement := by
  intro hall
  obtain ⟨s, σ, _, h2, _, h4, _⟩ := wide_state
  obtain ⟨t, seen, hI, hd⟩ := h2.serialInserts.insertOnly
  obtain ⟨n, ch, n2, ch2, k, v, ht, hk, h97, h98, hlf⟩ := wide_shape hd hI.mem.core.wf (fun k v => by rw [hI.has_iff, h4])
  have hh := hI.mem.core.held
  have hroot : s.st.root = wordOf 0 t := by rw [hI.mem.core.root, ht]; rfl
  have hlen : t.leaves.length = 257 := by
    have hs : slotsOf false ch = [97, 98] := hk
    rw [ht, ← leavesAt_slotsOf, hs, leavesAt_cons, leavesAt_cons, h97, h98, ← leavesAt_slotsOf]
    have h3 := leavesAt_all hlf
    simp [T.leaves, h3]
  obtain ⟨N, hN⟩ := hall _ s σ (h2.mono fun _ _ h => h.1) _ hI.listing_nil
  have h5 := hN (N + 2 * t.nodes + 2) (by omega) 258
  rcases wide_first hh ht hk h97 h98 hlf hroot (N + 2 * t.nodes) with ⟨e, h6⟩ | ⟨it, x, h6, i1, i2, i3, i4, i5⟩
  · unfold Iter.run at h5
    rw [h6] at h5
    cases h5
  · unfold Iter.run at h5
    rw [h6] at h5
    simp only [bind, Except.bind] at h5
    cases h7 : Iter.run s.st (N + 2 * t.nodes + 2) 257 it with
    | error e => rw [h7] at h5; cases h5
    | ok r =>
      rw [h7] at h5
      obtain ⟨w, ok, it', h8, h9⟩ := Iter.run_fetched 256 (by rw [i4, i5]; omega) h7
      have h10 := wide_restarts hh ht hk h97 h98 hlf hroot (by omega) (it := { it with pp := it.pp + 256, value := w }) i1 i2 i3
        (by show it.prefetched.length ≤ it.pp + 256; omega) h8
      subst h10
      have h11 := congrArg (fun l => l[257]?) (Except.ok.inj h5)
      simp only [List.getElem?_cons_succ] at h11
      rw [h9] at h11
      simp [nextResults, hlen] at h11

end Radix
