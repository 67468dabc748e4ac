import Verif.Properties.Contract
import Verif.Properties.PrintTwo
import Verif.Properties.Results
/-!
# C03, C14 to C18 and C39 with two updates or one delete at a time, access by access

What `Lookup`, iterators, `MinKey`, `MaxKey` and `Count` return if they run, without interruption, in a state of the executions of C62; operations may be
under way in this state.  (With their loads as steps of their own: C63.)
-/
set_option autoImplicit false
namespace Radix

section
variable {st : St} {l : Nat → Nat → Int} {r : Int}

theorem count_relock (fuel : Nat) (p : Key) : count { st with locks := l, rootLock := r } fuel p = count st fuel p := by
  rw [← run_countP, ← run_countP]
  exact Prog.run_congr (st := st) (st' := { st with locks := l, rootLock := r }) rfl rfl rfl _

theorem minKey_relock (fuel : Nat) (p : Key) : minKey { st with locks := l, rootLock := r } fuel p = minKey st fuel p := by
  rw [← run_minKeyP, ← run_minKeyP]
  exact Prog.run_congr (st := st) (st' := { st with locks := l, rootLock := r }) rfl rfl rfl _

theorem maxKey_relock (fuel : Nat) (p : Key) : maxKey { st with locks := l, rootLock := r } fuel p = maxKey st fuel p := by
  rw [← run_maxKeyP, ← run_maxKeyP]
  exact Prog.run_congr (st := st) (st' := { st with locks := l, rootLock := r }) rfl rfl rfl _

theorem next_relock (fuel : Nat) (it : Iter) : it.next { st with locks := l, rootLock := r } fuel = it.next st fuel := by
  rw [← run_nextP, ← run_nextP]
  exact Prog.run_congr (st := st) (st' := { st with locks := l, rootLock := r }) rfl rfl rfl _

theorem iter_relock (fuel n : Nat) : ∀ it : Iter, Iter.run { st with locks := l, rootLock := r } fuel n it = Iter.run st fuel n it := by
  induction n with
  | zero => intro it; rfl
  | succ n ih =>
    intro it
    unfold Iter.run
    simp only [next_relock, ih]
end

variable {env : Env} {τ : TSys} {σ : Spec}

/-- C14, for at most 256 keys: an iteration yields the values of all stored keys, exactly once and in order, and then ends. -/
theorem C14_full_iteration_two_partial (h : TRun env TTwoUpdates τ σ) {l : List (Key × Word)} (hl : Listing σ.map [] l) (hs : l.length ≤ 256) :
    ∃ N, ∀ fuel ≥ N, ∀ n, Iter.run τ.f.sys.st fuel n (Iter.new []) = .ok (nextResults l n) := by
  obtain ⟨s, lk, r, hr, e⟩ := h.twoStep
  rw [e]
  simp only [iter_relock]
  exact C14_full_iteration_partial hr hl (.inl hs)

/-- C14, for trees of any size: the calls of `Next` that do not panic return the values in order. -/
theorem C14_values_in_order_two_partial (h : TRun env TTwoUpdates τ σ) {l : List (Key × Word)} (hl : Listing σ.map [] l) :
    ∃ N, ∀ fuel ≥ N, ∀ n ≤ l.length, ∀ r, Iter.run τ.f.sys.st fuel n (Iter.new []) = .ok r → r = nextResults l n := by
  obtain ⟨s, lk, r, hr, e⟩ := h.twoStep
  rw [e]
  simp only [iter_relock]
  exact C14_values_in_order_partial hr hl

/-- C15, for at most 256 keys with the prefix, and at least one. -/
theorem C15_prefix_iteration_two_partial (h : TRun env TTwoUpdates τ σ) (hb : 0 < τ.f.sys.st.nblocks) {p : Key} {l : List (Key × Word)}
    (hl : Listing σ.map p l) (hne : l ≠ []) (hs : l.length ≤ 256) :
    ∃ N, ∀ fuel ≥ N, ∀ n, Iter.run τ.f.sys.st fuel n (Iter.new p) = .ok (nextResults l n) := by
  obtain ⟨s, lk, r, hr, e⟩ := h.twoStep
  rw [e] at hb ⊢
  simp only [iter_relock]
  exact C15_prefix_iteration_partial hr hb hl hne (.inl hs)

/-- C16: if `MinKey` finds something and some key has the prefix, it is the smallest one. -/
theorem C16_min_key_found_two_partial (h : TRun env TTwoUpdates τ σ) {p : Key} (hb : p ≠ [] → 0 < τ.f.sys.st.nblocks) {l : List (Key × Word)}
    (hl : Listing σ.map p l) : ∃ r N, (∀ fuel ≥ N, minKey τ.f.sys.st fuel p = .ok r) ∧
      (r = none ∨ r = l.head?.map (·.2) ∨ (l = [] ∧ p ≠ [] ∧ ∃ k v, r = some v ∧ σ.map k = some v)) := by
  obtain ⟨s, lk, r, hr, e⟩ := h.twoStep
  rw [e] at hb ⊢
  simp only [minKey_relock]
  exact C16_min_key_found_partial hr hb hl

/-- C17: the same for `MaxKey`. -/
theorem C17_max_key_found_two_partial (h : TRun env TTwoUpdates τ σ) {p : Key} (hb : p ≠ [] → 0 < τ.f.sys.st.nblocks) {l : List (Key × Word)}
    (hl : Listing σ.map p l) : ∃ r N, (∀ fuel ≥ N, maxKey τ.f.sys.st fuel p = .ok r) ∧
      (r = none ∨ r = l.getLast?.map (·.2) ∨ (l = [] ∧ p ≠ [] ∧ ∃ k v, r = some v ∧ σ.map k = some v)) := by
  obtain ⟨s, lk, r, hr, e⟩ := h.twoStep
  rw [e] at hb ⊢
  simp only [maxKey_relock]
  exact C17_max_key_found_partial hr hb hl

/-- C18: `Count` returns the number of keys with the prefix, if there are any or the prefix is empty, and 0 or 1 otherwise. -/
theorem C18_count_two_partial (h : TRun env TTwoUpdates τ σ) {p : Key} (hb : p ≠ [] → 0 < τ.f.sys.st.nblocks) {l : List (Key × Word)}
    (hl : Listing σ.map p l) : ∃ N, ∀ fuel ≥ N, ∃ c, count τ.f.sys.st fuel p = .ok c ∧ ((l ≠ [] ∨ p = []) → c.leaves = l.length) ∧
      (l = [] → c.leaves ≤ 1) := by
  obtain ⟨s, lk, r, hr, e⟩ := h.twoStep
  rw [e] at hb ⊢
  simp only [count_relock]
  exact C18_count_partial hr hb hl

/-- C15, for a prefix that no key has: the iteration yields at most one value, of a stored key. -/
theorem C15_prefix_without_keys_two_partial (h : TRun env TTwoUpdates τ σ) (hb : 0 < τ.f.sys.st.nblocks) {p : Key} (hl : Listing σ.map p []) :
    ∃ N, ∀ fuel ≥ N, ∃ l', (l' = [] ∨ ∃ k v, l' = [(k, v)] ∧ σ.map k = some v) ∧
      ∀ n, Iter.run τ.f.sys.st fuel n (Iter.new p) = .ok (nextResults l' n) := by
  obtain ⟨s, lk, r, hr, e⟩ := h.twoStep
  rw [e] at hb ⊢
  simp only [iter_relock]
  exact C15_prefix_without_keys_partial hr hb hl

/-- C03, what does hold: the candidate is a stored key which agrees with the lookup key at every position where another stored key
branches off from it. -/
theorem C03_candidate_agrees_at_branches_two_partial (h : TRun env TTwoUpdates τ σ) (hb : 0 < τ.f.sys.st.nblocks) {a : Nat} {key : Key}
    (hk : key ≠ []) {v : Word} {st' : St} (hl : lookup τ.f.sys.st a key = .ok (some v, st')) :
    ∃ k, σ.map k = some v ∧ env.fetch v = k ∧ ∀ k' v', σ.map k' = some v' → ∀ i, k'.take i = k.take i → k'[i]? ≠ k[i]? → key[i]? = k[i]? := by
  obtain ⟨s, l, r, hr, e⟩ := h.twoStep
  rw [e] at hb hl
  have h0 : ∃ st'', lookup s.st a key = .ok (some v, st'') := by
    have hs := search_congr (st' := ({ s.st with locks := l, rootLock := r } : St).startOp a) (st := s.st.startOp a) rfl rfl rfl key
    unfold lookup at hl ⊢
    simp only [bind, Except.bind] at hl ⊢
    rw [hs] at hl
    split at hl
    · cases hl
    · rename_i x hx; cases hl; exact ⟨_, rfl⟩
  obtain ⟨st'', h0⟩ := h0
  obtain ⟨k, h1, h2, h3, -⟩ := C03_candidate_agrees_at_branches_partial hr hb hk h0
  exact ⟨k, h1, h2, h3⟩

/-- C39, the bounds of `NodeSizes` that do hold. -/
theorem C39_node_sizes_two_partial (h : TRun env TTwoUpdates τ σ) {p : Key} (hb : p ≠ [] → 0 < τ.f.sys.st.nblocks) :
    ∃ N, ∀ fuel ≥ N, ∃ c, count τ.f.sys.st fuel p = .ok c ∧ c.nodes ≤ c.sumSizes ∧ (c.nodes = 0 → c.sumSizes = 0) ∧
      (0 < c.nodes → c.sumSizes < 2 * c.nodes) ∧ c.nodesWithPrefix ≤ c.sumSizes := by
  obtain ⟨s, lk, r, hr, e⟩ := h.twoStep
  rw [e] at hb ⊢
  simp only [count_relock]
  exact C39_node_sizes_partial hr hb

/-- C39, how the statistics about prefixes are related. -/
theorem C39_prefix_statistics_two_partial (h : TRun env TTwoUpdates τ σ) {p : Key} (hb : p ≠ [] → 0 < τ.f.sys.st.nblocks) :
    ∃ N, ∀ fuel ≥ N, ∃ c, count τ.f.sys.st fuel p = .ok c ∧ c.nodesWithPrefix ≤ c.totalPrefixLength ∧ c.largePrefixes ≤ c.nodesWithPrefix ∧
      255 * c.largePrefixes ≤ c.totalPrefixLength ∧ c.totalPrefixLength + 8 * c.largePrefixes ≤ c.totalPrefixBytes ∧
      c.totalPrefixBytes ≤ c.totalPrefixLength + 8 * c.largePrefixes + 7 * c.nodesWithPrefix ∧
      (c.nodesWithPrefix = 0 ↔ c.totalPrefixLength = 0) := by
  obtain ⟨s, lk, r, hr, e⟩ := h.twoStep
  rw [e] at hb ⊢
  simp only [count_relock]
  exact C39_prefix_statistics_partial hr hb

/-- The hypotheses are met in the middle of two updates: there is a list of the stored keys, which is not empty and not longer than 256. -/
example : ∃ τ σ, TRun (Env.ofList raceKeys raceKeys_good) TTwoUpdates τ σ ∧ (τ.f.sys.proc 1).writer = true ∧ 0 < τ.f.sys.st.nblocks ∧
    ∃ l, Listing σ.map [] l ∧ l ≠ [] ∧ l.length ≤ 256 := by
  have h : (match ttrace2 raceKeys (TSys.new 2) .init (tornActs 11 12) with
    | some (τ, σ) => decide ((τ.f.sys.proc 1).writer = true) && decide (0 < τ.f.sys.st.nblocks) && decide (σ.map [97, 97, 99] = some 6)
    | none => false) = true := by decide +kernel
  split at h
  · rename_i τ σ ht
    have hr := TRun.trace2 (h := raceKeys_good) (.init 2) ht
    simp only [Bool.and_eq_true, decide_eq_true_eq] at h
    obtain ⟨s, t, seen, hF⟩ := hr.two.1.two
    have hl := hF.inv.listing_nil
    refine ⟨τ, σ, hr, h.1.1, h.1.2, t.leaves, hl, ?_, ?_⟩
    · intro h0
      have := (hl.2 _ _).2 ⟨h.2, List.nil_prefix⟩
      rw [h0] at this
      cases this
    · have hn : (t.leaves.map (·.1)).Nodup := List.pairwise_map.2 (hl.1.imp fun {a b} hlt (he : a.1 = b.1) => lex_irrefl b.1 (by rw [he] at hlt; exact hlt))
      have := hn.length_le_of_subset (l₂ := raceKeys) fun k hk => by
        obtain ⟨⟨k, v⟩, h1, rfl⟩ := List.mem_map.1 hk
        exact (hF.inv.stored ((hl.2 k v).1 h1).1).1
      rw [List.length_map] at this
      exact Nat.le_trans this (by decide)
  · cases h

/-- The hypothesis of `C15_prefix_without_keys_two_partial` is met in the middle of two updates: no key has the prefix "z". -/
example : ∃ τ σ, TRun (Env.ofList raceKeys raceKeys_good) TTwoUpdates τ σ ∧ (τ.f.sys.proc 1).writer = true ∧ 0 < τ.f.sys.st.nblocks ∧
    Listing σ.map [122] [] ∧ σ.map [97, 97, 99] = some 6 := by
  have h : (match ttrace2 raceKeys (TSys.new 2) .init (tornActs 11 12) with
    | some (τ, σ) => decide ((τ.f.sys.proc 1).writer = true) && decide (0 < τ.f.sys.st.nblocks) && decide (σ.map [97, 97, 99] = some 6)
    | none => false) = true := by decide +kernel
  split at h
  · rename_i τ σ ht
    have hr := TRun.trace2 (h := raceKeys_good) (.init 2) ht
    simp only [Bool.and_eq_true, decide_eq_true_eq] at h
    obtain ⟨s, t, seen, hF⟩ := hr.two.1.two
    refine ⟨τ, σ, hr, h.1.1, h.1.2, ⟨List.Pairwise.nil, fun k v => ⟨fun h0 => absurd h0 (by simp), fun h0 => ?_⟩⟩, h.2⟩
    have hk : k ∈ raceKeys := (hF.inv.stored h0.1).1
    have hno : ∀ k ∈ raceKeys, ¬ [122] <+: k := by decide
    exact absurd h0.2 (hno k hk)
  · cases h

/-- The hypotheses of `C03_candidate_agrees_at_branches_two_partial` are met in the middle of two updates. -/
example : ∃ τ σ, TRun (Env.ofList raceKeys raceKeys_good) TTwoUpdates τ σ ∧ (τ.f.sys.proc 1).writer = true ∧ 0 < τ.f.sys.st.nblocks ∧
    ∃ v st', lookup τ.f.sys.st 0 [97, 97, 99] = .ok (some v, st') := by
  have h : (match ttrace2 raceKeys (TSys.new 2) .init (tornActs 11 12) with
    | some (τ, _) => decide ((τ.f.sys.proc 1).writer = true) && decide (0 < τ.f.sys.st.nblocks) &&
        (match lookup τ.f.sys.st 0 [97, 97, 99] with | .ok (some _, _) => true | _ => false)
    | none => false) = true := by decide +kernel
  split at h
  · rename_i τ σ ht
    have hr := TRun.trace2 (h := raceKeys_good) (.init 2) ht
    simp only [Bool.and_eq_true, decide_eq_true_eq] at h
    refine ⟨τ, σ, hr, h.1.1, h.1.2, ?_⟩
    have h2 := h.2
    split at h2
    · rename_i v st' hv; exact ⟨v, st', hv⟩
    · cases h2
  · cases h

end Radix
