import Verif.Sys.Read
import Verif.Shape
import Verif.Demo
import Verif.Properties.Codec
/-!
# Properties C14 to C18, C33, C36, C39: iterators, minimum, maximum, counting

`Listing σ.map p l`: `l` lists the stored keys with prefix `p` and their values in key order (`Verif/Sys/Read.lean`).  The theorems are
about calls in any state of a calm execution (`Verif/Calm.lean`), of which the quiescent states are a special case.  Loops
of readers have a bound `fuel` for the number of rounds in the model; "for all large enough `fuel`" means that the call terminates
with this result.  `InsertOnly`: no delete is finalized.
-/
set_option autoImplicit false
namespace Radix
variable {env : Env} {s : Sys} {σ : Spec}

/-! ## Concrete executions for the examples and counterexamples -/

/-- Sequential executions without finalized deletes. -/
def SerialInserts (s : Sys) (act : Act) : Prop := Serial s act ∧ ¬ s.DelPub act

theorem Run.serialInserts (h : Run env SerialInserts s σ) : Run env InsertOnly s σ :=
  (h.mono (G' := fun s act => OneWriter s act ∧ ¬ s.DelPub act) fun _ _ h => ⟨h.1.oneWriter, h.2⟩).oneWriter_and

def serialInsertsB (s : Sys) (act : Act) : Bool :=
  serialB s act && match act with
    | .publish a _ => match s.proc a with | .del (.held _) => false | _ => true
    | .commit a => match s.proc a with | .delB _ _ => false | _ => true
    | _ => true

theorem serialInserts_sound {env : Env} (s : Sys) (σ : Spec) (act : Act) (h : Run env SerialInserts s σ) (hb : serialInsertsB s act = true) :
    SerialInserts s act := by
  unfold serialInsertsB at hb
  rw [Bool.and_eq_true] at hb
  refine ⟨serial_sound s σ act (h.mono fun _ _ h => h.1) hb.1, ?_⟩
  rintro (⟨a, v, cur, rfl, hp⟩ | ⟨a, cur, cm, rfl, hp⟩) <;>
  · have := hb.2
    simp only [hp] at this
    cases this

/-- If none of the caller's keys has the prefix, nothing is listed. -/
theorem Run.listing_none {l : List Key} {hl} (h : Run (Env.ofList l hl) Calm s σ) {p : Key} (hp : (l.all fun k => !p.isPrefixOf k) = true) :
    Listing σ.map p [] := by
  obtain ⟨t, seen, hI⟩ := h.inv
  refine ⟨List.Pairwise.nil, fun k v => ⟨fun h => (by cases h), fun ⟨h1, h2⟩ => ?_⟩⟩
  have h3 : k ∈ l := (hI.stored h1).1
  have := List.all_eq_true.1 hp k h3
  rw [List.isPrefixOf_iff_prefix.2 h2] at this
  cases this

/-- A listing can be checked. -/
theorem Run.listing_of {l : List Key} {hl} (h : Run (Env.ofList l hl) Calm s σ) {p : Key} {m : List (Key × Word)}
    (h1 : m.Pairwise fun a b => a.1 < b.1) (h2 : (m.all fun x => decide (σ.map x.1 = some x.2) && p.isPrefixOf x.1) = true)
    (h3 : (l.all fun k => !p.isPrefixOf k || decide (σ.map k = none) || m.any fun x => decide (x.1 = k)) = true) : Listing σ.map p m := by
  obtain ⟨t, seen, hI⟩ := h.inv
  refine ⟨h1, fun k v => ⟨fun h => ?_, fun ⟨h4, h5⟩ => ?_⟩⟩
  · have := List.all_eq_true.1 h2 _ h
    rw [Bool.and_eq_true, decide_eq_true_eq] at this
    exact ⟨this.1, List.isPrefixOf_iff_prefix.1 this.2⟩
  · have h6 : k ∈ l := (hI.stored h4).1
    have := List.all_eq_true.1 h3 k h6
    rw [List.isPrefixOf_iff_prefix.2 h5, h4] at this
    simp only [Bool.not_true, Bool.false_or, Bool.or_eq_true, decide_eq_true_eq, List.any_eq_true, reduceCtorEq, false_or] at this
    obtain ⟨⟨k', v'⟩, h7, h8⟩ := this
    simp only at h8
    subst h8
    have := List.all_eq_true.1 h2 _ h7
    rw [Bool.and_eq_true, decide_eq_true_eq, h4] at this
    simp only [Option.some.injEq] at this
    rw [this.1]; exact h7

/-- The listing of the four keys "apple", "april", "bar", "bob". -/
def demoListing : List (Key × Word) := [([97, 112, 112, 108, 101], 0), ([97, 112, 114, 105, 108], 1), ([98, 97, 114], 3), ([98, 111, 98], 2)]

/-- The tree with four keys of the examples; it is built without deletes. -/
theorem demoFour (check : Sys → Bool)
    (hc : checkTrace demoKeys serialInsertsB 2 (demoActs.take 33) (fun s σ => decide (0 < s.st.nblocks) &&
      demoListing.all (fun x => decide (σ.map x.1 = some x.2)) && check s) = true) :
    ∃ s σ, Run demoEnv SerialInserts s σ ∧ 0 < s.st.nblocks ∧ Listing σ.map [] demoListing ∧ Listing σ.map [97, 112] (demoListing.take 2) ∧
      check s = true := by
  obtain ⟨s, σ, h1, h2⟩ := Run.ofCheck (h := demoKeys_good) (G := SerialInserts) serialInserts_sound hc
  simp only [Bool.and_eq_true, decide_eq_true_eq] at h2
  have h3 := fun x hx => of_decide_eq_true (List.all_eq_true.1 h2.1.2 x hx)
  have e1 := h3 ([97, 112, 112, 108, 101], 0) (by decide)
  have e2 := h3 ([97, 112, 114, 105, 108], 1) (by decide)
  have e3 := h3 ([98, 97, 114], 3) (by decide)
  have e4 := h3 ([98, 111, 98], 2) (by decide)
  refine ⟨s, σ, h1, h2.1.1, ?_, ?_, h2.2⟩
  · refine h1.serialInserts.insertOnly_calm.listing_of (by decide) ?_ (by simp [demoListing, demoKeys])
    simp only [demoListing, List.all_cons, List.all_nil, e1, e2, e3, e4]; decide
  · refine h1.serialInserts.insertOnly_calm.listing_of (by decide) ?_ (by simp [demoListing, demoKeys, List.isPrefixOf])
    simp only [demoListing, List.take, List.all_cons, List.all_nil, e1, e2]; decide

/-- The keys "apple" and "april" are stored.  No key starts with "appx", but the search for this prefix ends at the leaf of "apple". -/
theorem demoWrongLeaf : ∃ s σ, Run demoEnv Serial s σ ∧ 0 < s.st.nblocks ∧ Listing σ.map [97, 112, 112, 120] [] ∧
    partialSearch s.st [97, 112, 112, 120] = .ok (buildLeaf 112 0, 2) := by
  obtain ⟨s, σ, h1, h2⟩ := Run.ofCheck (h := demoKeys_good) (G := Serial) serial_sound (n := 2) (acts := demoActs.take 13)
    (check := fun s _ => decide (0 < s.st.nblocks) && decide (partialSearch s.st [97, 112, 112, 120] = .ok (buildLeaf 112 0, 2)))
    (by decide +kernel)
  simp only [Bool.and_eq_true, decide_eq_true_eq] at h2
  exact ⟨s, σ, h1, h2.1, h1.calm.listing_none (by decide), h2.2⟩

/-! ## C14, C15: iterators -/

/-- The results of the first `n` calls of `Next` on an iterator over the values `l`: the values in order, then false forever. -/
def nextResults (l : List (Key × Word)) (n : Nat) : List (Option Word) := (List.range n).map fun i => (l.map (·.2))[i]?

/-- Iterating with a prefix: the general statement behind C14 and C15. -/
theorem Run.iterate (h : Run env Calm s σ) {p : Key} (hb : p ≠ [] → 0 < s.st.nblocks) {l : List (Key × Word)} (hl : Listing σ.map p l)
    (hne : p ≠ [] → l ≠ []) :
    ∃ N, ∀ fuel ≥ N, ∀ n, Iter.run s.st fuel n (Iter.new p) = .ok (nextResults l n) ∨
      (256 < l.length ∧ ¬ (Run env InsertOnly s σ ∧ LastApart l) ∧
        ((∃ e, Iter.run s.st fuel n (Iter.new p) = .error e) ∨ l.length < n)) := by
  have hgen : ∃ t seen, Inv env s σ t seen ∧ ((Run env InsertOnly s σ ∧ LastApart l) → t.Dense) := by
    by_cases h1 : Run env InsertOnly s σ
    · obtain ⟨t, seen, hI, hd⟩ := h1.insertOnly; exact ⟨t, seen, hI, fun _ => hd⟩
    · obtain ⟨t, seen, hI⟩ := h.inv; exact ⟨t, seen, hI, fun h2 => absurd h2.1 h1⟩
  obtain ⟨t, seen, hI, hs⟩ := hgen
  obtain ⟨b0, t0, q0, d, -, h1, hh, hvals, hdense, h2⟩ := hI.seek p hb
  have h2' : Listing σ.map p t0.leaves := by
    rcases h2 with h2 | ⟨k, v, _, _, hp, h2⟩
    · exact h2
    · exfalso
      by_cases e : p = []
      · exact hp (by rw [e]; exact List.nil_prefix)
      · exact hne e (hl.unique h2)
  have e : l = t0.leaves := hl.unique h2'
  refine ⟨2 * t0.nodes + 1, fun fuel hf n => ?_⟩
  have hrun := Iter.run_tree hh h1 (brk := 256 < l.length ∧ ¬ (Run env InsertOnly s σ ∧ LastApart l)) (fun g1 g2 => ⟨by rw [e]; exact g1, fun g3 => g2 ?_⟩)
    (fuel := fuel) (by omega) n (ItInv.new b0 t0 p _)
  · rw [hvals, ← e] at hrun
    rcases hrun with h | ⟨h, h'⟩
    · exact .inl h
    · exact .inr ⟨h.1, h.2, by simpa using h'⟩
  · have hd0 := hdense (hs g3)
    cases ht0 : t0 with
    | empty => rw [ht0] at g1; simp [T.leaves, prefetchLength] at g1
    | leaf => rw [ht0] at g1; simp [T.leaves, prefetchLength] at g1
    | node n pfx big ch =>
      rw [ht0] at hd0 hh e
      exact hd0.lastLeaf hh.wf (by rw [← e]; exact g3.2)

/-- C14, for at most 256 keys or (without deletes) a last key that is apart from the others: an iteration yields the values of all
stored keys, exactly once and in order, and then ends.  Missing: larger trees, for which it does not hold in general
(`C14_does_not_hold`). -/
theorem C14_full_iteration_partial (h : Run env Calm s σ) {l : List (Key × Word)} (hl : Listing σ.map [] l)
    (hs : l.length ≤ 256 ∨ (Run env InsertOnly s σ ∧ LastApart l)) :
    ∃ N, ∀ fuel ≥ N, ∀ n, Iter.run s.st fuel n (Iter.new []) = .ok (nextResults l n) := by
  obtain ⟨N, hN⟩ := h.iterate (fun h => absurd rfl h) hl (fun h => absurd rfl h)
  refine ⟨N, fun fuel hf n => ?_⟩
  rcases hN fuel hf n with h | ⟨h1, h2, _⟩
  · exact h
  · rcases hs with hs | hs
    · omega
    · exact absurd hs h2

/-- C14, for trees of any size: as long as there are values left, the calls of `Next` that do not panic return them in order. -/
theorem C14_values_in_order_partial (h : Run env Calm s σ) {l : List (Key × Word)} (hl : Listing σ.map [] l) :
    ∃ N, ∀ fuel ≥ N, ∀ n ≤ l.length, ∀ r, Iter.run s.st fuel n (Iter.new []) = .ok r → r = nextResults l n := by
  obtain ⟨N, hN⟩ := h.iterate (fun h => absurd rfl h) hl (fun h => absurd rfl h)
  refine ⟨N, fun fuel hf n hn r hr => ?_⟩
  rcases hN fuel hf n with h | ⟨h1, h2, ⟨e, h3⟩ | h3⟩
  · rw [h] at hr; exact (Except.ok.inj hr).symm
  · rw [h3] at hr; cases hr
  · omega

/-- A tree with four keys: all values in order, then the end; with the prefix "ap" two of them. -/
example : ∃ s σ, Run demoEnv SerialInserts s σ ∧ Listing σ.map [] demoListing ∧ Listing σ.map [97, 112] (demoListing.take 2) ∧
    Iter.run s.st 20 6 (Iter.new []) = .ok [some 0, some 1, some 3, some 2, none, none] ∧
    Iter.run s.st 20 3 (Iter.new [97, 112]) = .ok [some 0, some 1, none] := by
  obtain ⟨s, σ, h1, _, h3, h4, h5⟩ := demoFour (fun s => decide (Iter.run s.st 20 6 (Iter.new []) = .ok [some 0, some 1, some 3, some 2, none, none]) &&
    decide (Iter.run s.st 20 3 (Iter.new [97, 112]) = .ok [some 0, some 1, none])) (by decide +kernel)
  simp only [Bool.and_eq_true, decide_eq_true_eq] at h5
  exact ⟨s, σ, h1, h3, h4, h5.1, h5.2⟩

/-- C15 in full. -/
def C15_statement : Prop :=
  ∀ (env : Env) (s : Sys) (σ : Spec), Run env Serial s σ → 0 < s.st.nblocks → ∀ (p : Key) (l : List (Key × Word)), Listing σ.map p l →
    ∃ N, ∀ fuel ≥ N, ∀ n, Iter.run s.st fuel n (Iter.new p) = .ok (nextResults l n)

/-- C15 does not hold: with the keys "apple" and "april", iterating over the prefix "appx" yields the value of "apple". -/
theorem C15_does_not_hold : ¬ C15_statement := by
  intro hall
  obtain ⟨s, σ, h1, h2, h3, h4⟩ := demoWrongLeaf
  obtain ⟨N, hN⟩ := hall _ s σ h1 h2 _ _ h3
  have h5 := hN N (Nat.le_refl N) 1
  have h6 : Iter.run s.st N 1 (Iter.new [97, 112, 112, 120]) = .ok [some 0] := by
    have hs : Iter.start s.st (Iter.new [97, 112, 112, 120]).searchPrefix = .ok (buildLeaf 112 0, 2) := by
      rw [← h4]; rfl
    unfold Iter.run Iter.next
    simp only [bind, Except.bind, hs]
    have e1 : buildLeaf 112 0 ≠ 0 := by decide +kernel
    have e2 : isLeaf (buildLeaf 112 0) = true := by decide +kernel
    have e3 : leafValue (buildLeaf 112 0) = 0 := by decide +kernel
    rw [if_neg e1, if_pos e2, e3]
    rfl
  rw [h6] at h5
  cases h5

/-- C15, under the same restriction, for a prefix that some key has. -/
theorem C15_prefix_iteration_partial (h : Run env Calm s σ) (hb : 0 < s.st.nblocks) {p : Key} {l : List (Key × Word)}
    (hl : Listing σ.map p l) (hne : l ≠ []) (hs : l.length ≤ 256 ∨ (Run env InsertOnly s σ ∧ LastApart l)) :
    ∃ N, ∀ fuel ≥ N, ∀ n, Iter.run s.st fuel n (Iter.new p) = .ok (nextResults l n) := by
  obtain ⟨N, hN⟩ := h.iterate (fun _ => hb) hl (fun _ => hne)
  refine ⟨N, fun fuel hf n => ?_⟩
  rcases hN fuel hf n with h | ⟨h1, h2, _⟩
  · exact h
  · rcases hs with hs | hs
    · omega
    · exact absurd hs h2

/-- C15, for a prefix that no key has: the iteration yields at most one value, of a stored key. -/
theorem C15_prefix_without_keys_partial (h : Run env Calm s σ) (hb : 0 < s.st.nblocks) {p : Key} (hl : Listing σ.map p []) :
    ∃ N, ∀ fuel ≥ N, ∃ l', (l' = [] ∨ ∃ k v, l' = [(k, v)] ∧ σ.map k = some v) ∧
      ∀ n, Iter.run s.st fuel n (Iter.new p) = .ok (nextResults l' n) := by
  obtain ⟨t, seen, hI⟩ := h.inv
  obtain ⟨b0, t0, q0, d, -, h1, hh, hvals, hdense, h2⟩ := hI.seek p fun _ => hb
  have hlv : t0.leaves = [] ∨ ∃ k v, t0.leaves = [(k, v)] ∧ σ.map k = some v := by
    rcases h2 with h2 | ⟨k, v, h3, h4, _, _⟩
    · exact .inl (h2.unique hl)
    · exact .inr ⟨k, v, by rw [h3]; rfl, h4⟩
  refine ⟨2 * t0.nodes + 1, fun fuel hf => ⟨t0.leaves, hlv, fun n => ?_⟩⟩
  have hrun := Iter.run_tree hh h1 (brk := False) (fun g1 _ => by
    rcases hlv with e | ⟨k, v, e, _⟩ <;> rw [e] at g1 <;> simp [prefetchLength] at g1) (fuel := fuel) (by omega) n (ItInv.new b0 t0 p _)
  rw [hvals] at hrun
  rcases hrun with h | h
  · exact h
  · exact h.1.elim

/-! ## C16, C17: minimum and maximum -/

/-- C16 in full. -/
def C16_statement : Prop :=
  ∀ (env : Env) (s : Sys) (σ : Spec), Run env Serial s σ → 0 < s.st.nblocks → ∀ (p : Key) (l : List (Key × Word)), Listing σ.map p l →
    ∃ N, ∀ fuel ≥ N, minKey s.st fuel p = .ok (l.head?.map (·.2))

/-- C17 in full. -/
def C17_statement : Prop :=
  ∀ (env : Env) (s : Sys) (σ : Spec), Run env Serial s σ → 0 < s.st.nblocks → ∀ (p : Key) (l : List (Key × Word)), Listing σ.map p l →
    ∃ N, ∀ fuel ≥ N, maxKey s.st fuel p = .ok (l.getLast?.map (·.2))

/-- C16 does not hold: with the keys "apple" and "april", `MinKey("appx")` returns the value of "apple". -/
theorem C16_does_not_hold : ¬ C16_statement := by
  intro hall
  obtain ⟨s, σ, h1, h2, h3, h4⟩ := demoWrongLeaf
  obtain ⟨N, hN⟩ := hall _ s σ h1 h2 _ _ h3
  have h5 := hN N (Nat.le_refl N)
  unfold minKey at h5
  simp only [bind, Except.bind, h4] at h5
  have e1 : buildLeaf 112 0 ≠ 0 := by decide +kernel
  have e2 : isLeaf (buildLeaf 112 0) = true := by decide +kernel
  rw [if_neg e1, if_pos e2] at h5
  cases h5

/-- C17 does not hold: the same for `MaxKey("appx")`. -/
theorem C17_does_not_hold : ¬ C17_statement := by
  intro hall
  obtain ⟨s, σ, h1, h2, h3, h4⟩ := demoWrongLeaf
  obtain ⟨N, hN⟩ := hall _ s σ h1 h2 _ _ h3
  have h5 := hN N (Nat.le_refl N)
  unfold maxKey at h5
  simp only [bind, Except.bind, h4] at h5
  have e1 : buildLeaf 112 0 ≠ 0 := by decide +kernel
  have e2 : isLeaf (buildLeaf 112 0) = true := by decide +kernel
  rw [if_neg e1, if_pos e2] at h5
  cases h5

/-- A tree with four keys. -/
example : ∃ s σ, Run demoEnv SerialInserts s σ ∧ 0 < s.st.nblocks ∧ Listing σ.map [97, 112] (demoListing.take 2) ∧
    minKey s.st 20 [97, 112] = .ok (some 0) ∧ maxKey s.st 20 [97, 112] = .ok (some 1) := by
  obtain ⟨s, σ, h1, h2, _, h4, h5⟩ := demoFour (fun s => decide (minKey s.st 20 [97, 112] = .ok (some 0)) &&
    decide (maxKey s.st 20 [97, 112] = .ok (some 1))) (by decide +kernel)
  simp only [Bool.and_eq_true, decide_eq_true_eq] at h5
  exact ⟨s, σ, h1, h2, h4, h5.1, h5.2⟩

/-- C16, for executions without finalized deletes and a prefix that some key has: `MinKey` returns the value of the smallest key with the
prefix. -/
theorem C16_min_key_partial (h : Run env InsertOnly s σ) (hb : 0 < s.st.nblocks) {p : Key} {l : List (Key × Word)}
    (hl : Listing σ.map p l) (hne : l ≠ []) : ∃ N, ∀ fuel ≥ N, minKey s.st fuel p = .ok (l.head?.map (·.2)) := by
  obtain ⟨t, seen, hI, hd⟩ := h.insertOnly
  obtain ⟨b0, t0, q0, d, -, h1, hh, hvals, hdense, h2⟩ := hI.seek p fun _ => hb
  have e : t0.leaves = l := by
    rcases h2 with h2 | ⟨_, _, _, _, _, h2⟩
    · exact h2.unique hl
    · exact absurd (hl.unique h2) hne
  obtain ⟨N, hN⟩ := minKey_held hh h1
  refine ⟨N, fun fuel hf => ?_⟩
  have hne0 : t0.isEmpty = false := by
    cases ht0 : t0 with
    | empty => rw [ht0] at e; exact absurd e.symm hne
    | leaf => rfl
    | node => rfl
  obtain ⟨x, hx⟩ := ((hdense hd).full hh.wf).first hne0
  have hx' := T.first_spec hx
  rw [hN fuel hf, hx]
  rw [← e, ← List.head?_map, ← hvals, vals, List.head?_map, hx']
  rfl

/-- C16, for all calm executions: if `MinKey` finds something and some key has the prefix, it is the smallest one; and if no key has
the prefix, the result is "not found" or the value of a stored key. -/
theorem C16_min_key_found_partial (h : Run env Calm s σ) {p : Key} (hb : p ≠ [] → 0 < s.st.nblocks) {l : List (Key × Word)}
    (hl : Listing σ.map p l) : ∃ r N, (∀ fuel ≥ N, minKey s.st fuel p = .ok r) ∧
      (r = none ∨ r = l.head?.map (·.2) ∨ (l = [] ∧ p ≠ [] ∧ ∃ k v, r = some v ∧ σ.map k = some v)) := by
  obtain ⟨t, seen, hI⟩ := h.inv
  obtain ⟨b0, t0, q0, d, -, h1, hh, hvals, -, h2⟩ := hI.seek p hb
  obtain ⟨N, hN⟩ := minKey_held hh h1
  refine ⟨_, N, hN, ?_⟩
  cases hx : t0.first with
  | none => exact .inl rfl
  | some x =>
    right
    have hx' := T.first_spec hx
    have hval : leafAnswer (some x) = (t0.leaves.head?).map (·.2) := by
      rw [← List.head?_map, ← hvals, vals, List.head?_map, hx']; rfl
    rcases h2 with h2 | ⟨k, v, h3, h4, h5, h6⟩
    · left
      rw [hval, h2.unique hl]
    · right
      refine ⟨hl.unique h6, fun e => h5 (by rw [e]; exact List.nil_prefix), k, v, ?_, h4⟩
      rw [hval, h3]; rfl

/-- C17, for executions without finalized deletes and a prefix that some key has. -/
theorem C17_max_key_partial (h : Run env InsertOnly s σ) (hb : 0 < s.st.nblocks) {p : Key} {l : List (Key × Word)}
    (hl : Listing σ.map p l) (hne : l ≠ []) : ∃ N, ∀ fuel ≥ N, maxKey s.st fuel p = .ok (l.getLast?.map (·.2)) := by
  obtain ⟨t, seen, hI, hd⟩ := h.insertOnly
  obtain ⟨b0, t0, q0, d, -, h1, hh, hvals, hdense, h2⟩ := hI.seek p fun _ => hb
  have e : t0.leaves = l := by
    rcases h2 with h2 | ⟨_, _, _, _, _, h2⟩
    · exact h2.unique hl
    · exact absurd (hl.unique h2) hne
  obtain ⟨N, hN⟩ := maxKey_held hh h1
  refine ⟨N, fun fuel hf => ?_⟩
  have hne0 : t0.isEmpty = false := by
    cases ht0 : t0 with
    | empty => rw [ht0] at e; exact absurd e.symm hne
    | leaf => rfl
    | node => rfl
  obtain ⟨x, hx⟩ := ((hdense hd).full hh.wf).last hne0
  have hx' := T.last_spec hx
  rw [hN fuel hf, hx]
  rw [← e, ← List.getLast?_map, ← hvals, vals, List.getLast?_map, hx']
  rfl

/-- C17, for all calm executions. -/
theorem C17_max_key_found_partial (h : Run env Calm s σ) {p : Key} (hb : p ≠ [] → 0 < s.st.nblocks) {l : List (Key × Word)}
    (hl : Listing σ.map p l) : ∃ r N, (∀ fuel ≥ N, maxKey s.st fuel p = .ok r) ∧
      (r = none ∨ r = l.getLast?.map (·.2) ∨ (l = [] ∧ p ≠ [] ∧ ∃ k v, r = some v ∧ σ.map k = some v)) := by
  obtain ⟨t, seen, hI⟩ := h.inv
  obtain ⟨b0, t0, q0, d, -, h1, hh, hvals, -, h2⟩ := hI.seek p hb
  obtain ⟨N, hN⟩ := maxKey_held hh h1
  refine ⟨_, N, hN, ?_⟩
  cases hx : t0.last with
  | none => exact .inl rfl
  | some x =>
    right
    have hx' := T.last_spec hx
    have hval : leafAnswer (some x) = (t0.leaves.getLast?).map (·.2) := by
      rw [← List.getLast?_map, ← hvals, vals, List.getLast?_map, hx']; rfl
    rcases h2 with h2 | ⟨k, v, h3, h4, h5, h6⟩
    · left
      rw [hval, h2.unique hl]
    · right
      refine ⟨hl.unique h6, fun e => h5 (by rw [e]; exact List.nil_prefix), k, v, ?_, h4⟩
      rw [hval, h3]; rfl

/-! ## C18, C33, C36, C39: counting -/

/-- C18, for a prefix that some key has, and for the empty prefix: `Count` returns the number of keys with the prefix.  For other prefixes
it returns 0 or 1 (and 1 does occur, `C18_does_not_hold`). -/
theorem C18_count_partial (h : Run env Calm s σ) {p : Key} (hb : p ≠ [] → 0 < s.st.nblocks) {l : List (Key × Word)}
    (hl : Listing σ.map p l) : ∃ N, ∀ fuel ≥ N, ∃ c, count s.st fuel p = .ok c ∧ ((l ≠ [] ∨ p = []) → c.leaves = l.length) ∧
      (l = [] → c.leaves ≤ 1) := by
  obtain ⟨t, seen, hI⟩ := h.inv
  obtain ⟨b0, t0, q0, d, -, h1, hh, hvals, -, h2⟩ := hI.seek p hb
  refine ⟨2 * t0.nodes + 1, fun fuel hf => ?_⟩
  obtain ⟨c, e1, e2, e3, e4⟩ := count_tree hh h1 (fuel := fuel) (by omega)
  refine ⟨c, e1, ?_, ?_⟩
  · intro hne
    rcases h2 with h2 | ⟨k, v, h3, h4, h5, h6⟩
    · rw [e2, h2.unique hl]
    · rcases hne with hne | hne
      · exact absurd (hl.unique h6) hne
      · rw [hne] at h5; exact absurd List.nil_prefix h5
  · intro hnil
    rcases h2 with h2 | ⟨k, v, h3, h4, h5, h6⟩
    · rw [e2, h2.unique hl, hnil]; simp
    · rw [e2, h3]; simp [T.leaves]

/-- C18 in full. -/
def C18_statement : Prop :=
  ∀ (env : Env) (s : Sys) (σ : Spec), Run env Serial s σ → 0 < s.st.nblocks → ∀ (p : Key) (l : List (Key × Word)), Listing σ.map p l →
    ∃ N, ∀ fuel ≥ N, ∃ c, count s.st fuel p = .ok c ∧ c.leaves = l.length

/-- C18 does not hold: with the keys "apple" and "april", `Count("appx")` is 1. -/
theorem C18_does_not_hold : ¬ C18_statement := by
  intro hall
  obtain ⟨s, σ, h1, h2, h3, h4⟩ := demoWrongLeaf
  obtain ⟨N, hN⟩ := hall _ s σ h1 h2 _ _ h3
  obtain ⟨c, h5, h6⟩ := hN N (Nat.le_refl N)
  unfold count at h5
  simp only [bind, Except.bind, h4] at h5
  have e1 : buildLeaf 112 0 ≠ 0 := by decide +kernel
  have e2 : isLeaf (buildLeaf 112 0) = true := by decide +kernel
  rw [if_neg e1, if_pos e2] at h5
  injection h5 with h5
  rw [← h5] at h6
  cases h6

/-- A tree with four keys and three nodes. -/
example : ∃ s σ, Run demoEnv SerialInserts s σ ∧ 0 < s.st.nblocks ∧ Listing σ.map [] demoListing ∧
    ∃ c, count s.st 20 [] = .ok c ∧ c.leaves = 4 ∧ c.nodes = 3 := by
  obtain ⟨s, σ, h1, h2, h3, _, h5⟩ := demoFour (fun s => match count s.st 20 [] with
    | .ok c => decide (c.leaves = 4) && decide (c.nodes = 3)
    | .error _ => false) (by decide +kernel)
  refine ⟨s, σ, h1, h2, h3, ?_⟩
  split at h5
  · simp only [Bool.and_eq_true, decide_eq_true_eq] at h5
    exact ⟨_, by assumption, h5.1, h5.2⟩
  · cases h5

/-- C36, for executions without finalized deletes: fewer nodes than keys. -/
theorem C36_fewer_nodes_than_keys_partial (h : Run env InsertOnly s σ) (hne : ∃ k v, σ.map k = some v) :
    ∃ N, ∀ fuel ≥ N, ∃ c, count s.st fuel [] = .ok c ∧ c.nodes < c.leaves := by
  obtain ⟨t, seen, hI, hd⟩ := h.insertOnly
  obtain ⟨b0, t0, q0, d, -, h1, hh, hvals, hdense, h2⟩ := hI.seek [] fun h => absurd rfl h
  refine ⟨2 * t0.nodes + 1, fun fuel hf => ?_⟩
  obtain ⟨c, e1, e2, e3, e4⟩ := count_tree hh h1 (fuel := fuel) (by omega)
  refine ⟨c, e1, ?_⟩
  rw [e2, e3]
  refine (hdense hd).nodes_lt hh.wf ?_
  obtain ⟨k, v, hk⟩ := hne
  cases ht0 : t0 with
  | leaf => rfl
  | node => rfl
  | empty =>
    rcases h2 with h2 | ⟨_, _, h3, _⟩
    · have := (h2.2 k v).2 ⟨hk, List.nil_prefix⟩
      rw [ht0] at this
      cases this
    · rw [ht0] at h3; cases h3

/-- The results of `Count`: nodes, leaves, and the exported statistics. -/
def Counter.results (c : Counter) : Nat × Nat × Nat × (Nat → Nat) × Nat × Nat × Nat :=
  (c.nodes, c.leaves, c.nodesWithPrefix, c.nodeSizes, c.totalPrefixLength, c.totalPrefixBytes, c.largePrefixes)

theorem stat_nodesWithPrefix : Stat (·.nodesWithPrefix) fun plen _ => if plen > 0 then 1 else 0 where
  visit c plen count _ := by
    by_cases h : plen > 0
    · simp [Counter.visit, h, show min plen 255 > 0 by omega]
    · simp [Counter.visit, h, show ¬ min plen 255 > 0 by omega]
  other c c' h1 h2 h3 h4 h5 := h1

theorem stat_nodeSizes (i : Nat) : Stat (fun c => c.nodeSizes i) fun _ count => if count = i then 1 else 0 where
  visit c plen count _ := by
    by_cases h : min plen 255 > 0
    · simp only [Counter.visit, h, if_true, upd]
      by_cases hi : count = i
      · rw [if_pos hi.symm, if_pos hi, hi]
      · rw [if_neg (Ne.symm hi), if_neg hi]; rfl
    · simp only [Counter.visit, h, if_false, upd]
      by_cases hi : count = i
      · rw [if_pos hi.symm, if_pos hi, hi]
      · rw [if_neg (Ne.symm hi), if_neg hi]; rfl
  other c c' h1 h2 h3 h4 h5 := by simp only [h2]

theorem stat_totalPrefixLength : Stat (·.totalPrefixLength) fun plen _ => plen where
  visit c plen count _ := by
    by_cases h : plen > 0
    · simp [Counter.visit, show min plen 255 > 0 by omega]
    · simp [Counter.visit, show ¬ min plen 255 > 0 by omega]; omega
  other c c' h1 h2 h3 h4 h5 := h3

theorem stat_totalPrefixBytes : Stat (·.totalPrefixBytes) fun plen _ => prefixSlots plen * 8 where
  visit c plen count _ := by
    by_cases h : plen > 0
    · simp [Counter.visit, show min plen 255 > 0 by omega]
    · have : plen = 0 := by omega
      subst this
      simp [Counter.visit, prefixSlots]
  other c c' h1 h2 h3 h4 h5 := h4

theorem stat_largePrefixes : Stat (·.largePrefixes) fun plen _ => if plen ≥ 255 then 1 else 0 where
  visit c plen count _ := by
    by_cases h : plen ≥ 255
    · simp [Counter.visit, h, show min plen 255 = 255 by omega]
    · by_cases h0 : plen > 0
      · simp [Counter.visit, h, show min plen 255 > 0 by omega]; omega
      · simp [Counter.visit, h, show ¬ min plen 255 > 0 by omega]
  other c c' h1 h2 h3 h4 h5 := h5

/-- C33: after two executions without finalized deletes that have stored the same keys, `Count` returns the same results and statistics
for every prefix, whatever the order of the inserts.  (The executions may even have different callers, values and interleavings.) -/
theorem C33_structure_is_order_independent {env' : Env} {s' : Sys} {σ' : Spec} (h : Run env InsertOnly s σ) (h' : Run env' InsertOnly s' σ')
    (hb : 0 < s.st.nblocks) (hb' : 0 < s'.st.nblocks) (hk : ∀ k, (∃ v, σ.map k = some v) ↔ ∃ v, σ'.map k = some v) (p : Key) :
    ∃ N, ∀ fuel ≥ N, ∃ c c', count s.st fuel p = .ok c ∧ count s'.st fuel p = .ok c' ∧ c.results = c'.results := by
  obtain ⟨t, seen, hI, hd⟩ := h.insertOnly
  obtain ⟨t', seen', hI', hd'⟩ := h'.insertOnly
  obtain ⟨b0, t0, q0, d, ht0, h1, hh, -, -, -⟩ := hI.seek p fun _ => hb
  obtain ⟨b0', t0', q0', d', ht0', h1', hh', -, -, -⟩ := hI'.seek p fun _ => hb'
  have he : t.erase = t'.erase := by
    refine hd.erase_eq hI.mem.core.wf hd' hI'.mem.core.wf fun k => ?_
    simp only [hI.has_iff, hI'.has_iff]
    exact hk k
  have he0 : t0.erase = t0'.erase := by
    rw [ht0, ht0', ← T.seekRoot_erase, ← T.seekRoot_erase, he]
  refine ⟨2 * t0.nodes + 2 * t0'.nodes + 1, fun fuel hf => ?_⟩
  obtain ⟨c, e1, e2, e3, e4⟩ := count_tree hh h1 (fuel := fuel) (by omega)
  obtain ⟨c', e1', e2', e3', e4'⟩ := count_tree hh' h1' (fuel := fuel) (by omega)
  refine ⟨c, c', e1, e1', ?_⟩
  have hst : ∀ φ w, Stat φ w → φ c = φ c' := by
    intro φ w hs
    rw [e4 φ w hs, e4' φ w hs, ← T.stat_erase, ← T.stat_erase w t0', he0]
  have hlv : t0.leaves.length = t0'.leaves.length := by
    have := congrArg (fun t : T => (t.leaves.map (·.1)).length) he0
    simpa only [T.leaves_erase, List.length_map] using this
  unfold Counter.results
  rw [e2, e2', e3, e3', hlv, ← T.nodes_erase t0, ← T.nodes_erase t0', he0]
  rw [hst _ _ stat_nodesWithPrefix, hst _ _ stat_totalPrefixLength, hst _ _ stat_totalPrefixBytes, hst _ _ stat_largePrefixes]
  rw [show c.nodeSizes = c'.nodeSizes from funext fun i => hst _ _ (stat_nodeSizes i)]

/-- The same four keys inserted in another order. -/
def demoActs' : List Act :=
  [.block] ++ putActs 0 [98, 111, 98] 2 2 ++ putActs 0 [97, 112, 114, 105, 108] 1 2 ++ putActs 0 [98, 97, 114] 3 6 ++
    putActs 0 [97, 112, 112, 108, 101] 0 6

/-- Two executions with the same keys; the memory contents are different. -/
example : ∃ s σ s' σ', Run demoEnv SerialInserts s σ ∧ Run demoEnv SerialInserts s' σ' ∧ 0 < s.st.nblocks ∧ 0 < s'.st.nblocks ∧
    (∀ k, (∃ v, σ.map k = some v) ↔ ∃ v, σ'.map k = some v) ∧ s.st.root ≠ s'.st.root := by
  obtain ⟨s, σ, h1, h2, h3, _, h4⟩ := demoFour (fun s => decide (s.st.root = 72057594172147200)) (by decide +kernel)
  obtain ⟨s', σ', h1', h2'⟩ := Run.ofCheck (h := demoKeys_good) (G := SerialInserts) serialInserts_sound (n := 2) (acts := demoActs')
    (check := fun s σ => decide (0 < s.st.nblocks) && demoKeys.all (fun k => decide (σ.map k ≠ none)) && decide (s.st.root ≠ 72057594172147200))
    (by decide +kernel)
  simp only [Bool.and_eq_true, decide_eq_true_eq] at h2' h4
  refine ⟨s, σ, s', σ', h1, h1', h2, h2'.1.1, fun k => ?_, by rw [h4]; exact fun e => h2'.2 e.symm⟩
  obtain ⟨_, _, hI⟩ := h1.serialInserts.insertOnly_calm.inv
  obtain ⟨_, _, hI'⟩ := h1'.serialInserts.insertOnly_calm.inv
  constructor
  · rintro ⟨v, hv⟩
    have hk : k ∈ demoKeys := (hI.stored hv).1
    exact Option.ne_none_iff_exists'.1 (of_decide_eq_true (List.all_eq_true.1 h2'.1.2 k hk))
  · rintro ⟨v, hv⟩
    have hk : k ∈ demoKeys := (hI'.stored hv).1
    have h5 : ∀ x ∈ demoListing, ∃ v, σ.map x.1 = some v := fun x hx => ⟨x.2, ((h3.2 x.1 x.2).1 hx).1⟩
    simp only [demoKeys, List.mem_cons, List.not_mem_nil, or_false] at hk
    rcases hk with rfl | rfl | rfl | rfl
    · exact h5 ([97, 112, 112, 108, 101], 0) (by decide)
    · exact h5 ([97, 112, 114, 105, 108], 1) (by decide)
    · exact h5 ([98, 111, 98], 2) (by decide)
    · exact h5 ([98, 97, 114], 3) (by decide)

/-- `Counter.NodeSizes` added up. -/
def Counter.sumSizes (c : Counter) : Nat := ((List.range 257).map c.nodeSizes).sum

theorem sum_upd_add (f : Nat → Nat) (i x : Nat) : ∀ l : List Nat, l.Nodup →
    (l.map (upd f i (f i + x))).sum = (l.map f).sum + if i ∈ l then x else 0
  | [], _ => by simp
  | j :: l, h => by
    simp only [List.nodup_cons] at h
    have ih := sum_upd_add f i x l h.2
    simp only [List.map_cons, List.sum_cons, ih, List.mem_cons, upd]
    by_cases hj : j = i
    · subst hj
      rw [if_neg h.1, if_pos rfl, if_pos (.inl rfl)]; omega
    · rw [if_neg hj]
      by_cases hi : i ∈ l
      · rw [if_pos hi, if_pos (.inr hi)]; omega
      · rw [if_neg hi, if_neg (by simp [hi, Ne.symm hj])]; omega

theorem stat_sumSizes : Stat Counter.sumSizes fun _ count => if count < 257 then 1 else 0 where
  visit c plen count _ := by
    have h : (c.visit (min plen 255) plen (prefixSlots plen) count).nodeSizes = upd c.nodeSizes count (c.nodeSizes count + 1) := by
      unfold Counter.visit
      split <;> rfl
    unfold Counter.sumSizes
    rw [h, sum_upd_add _ _ _ _ List.nodup_range]
    simp only [List.mem_range]
  other c c' h1 h2 h3 h4 h5 := by unfold Counter.sumSizes; rw [h2]

theorem again_le (ch : UInt8 → T) : ∀ cs, again ch cs ≤ (cs.filter fun c => (ch c).isNode).length
  | [] => Nat.le_refl _
  | c :: cs => by
    have := again_le ch cs
    rw [again, List.filter_cons]
    by_cases h : (ch c).isNode = true
    · rw [if_pos h]; simp only [List.length_cons]; split <;> omega
    · rw [if_neg h, if_neg (fun h' => h h'.1)]; omega

theorem cnt_le_256 (big : Bool) (ch : UInt8 → T) : cnt big ch ≤ 256 := by
  unfold cnt
  split
  · exact Nat.le_refl _
  · have := List.length_filter_le (present ch) allBytes
    have h2 : allBytes.length = 256 := by decide +kernel
    unfold cntOf kidsOf; omega

theorem T.stat_mono {w w' : Nat → Nat → Nat} (hw : ∀ p c, c ≤ 256 → w p c ≤ w' p c) (t : T) : t.stat w ≤ t.stat w' := by
  induction t with
  | empty => exact Nat.le_refl _
  | leaf => exact Nat.le_refl _
  | node n pfx big ch ih =>
    simp only [T.stat]
    have h1 := Nat.mul_le_mul_left (1 + again ch allBytes) (hw pfx.length (cnt big ch) (cnt_le_256 big ch))
    have h2 : ∀ l : List UInt8, (l.map fun c => (ch c).stat w).sum ≤ (l.map fun c => (ch c).stat w').sum := by
      intro l
      induction l with
      | nil => simp
      | cons c l ihl => have := ih c; simp only [List.map_cons, List.sum_cons]; omega
    have h3 := h2 allBytes
    unfold sumB
    omega

/-- Every node is visited, and fewer than `nodes` visits are repeated. -/
theorem T.stat_visits {w : Nat → Nat → Nat} (hw : ∀ p c, c ≤ 256 → w p c = 1) (t : T) :
    t.nodes ≤ t.stat w ∧ t.stat w + (if t.isNode then 1 else 0) ≤ 2 * t.nodes := by
  induction t with
  | empty => simp [T.stat, T.nodes, T.isNode]
  | leaf => simp [T.stat, T.nodes, T.isNode]
  | node n pfx big ch ih =>
    simp only [T.stat, T.nodes, T.isNode, if_true]
    rw [hw _ _ (cnt_le_256 big ch), Nat.mul_one]
    have h1 := again_le ch allBytes
    have h2 := sum_kids_le (fun c => (ch c).stat w) (fun c => 2 * (ch c).nodes) (fun c => (ch c).isNode) allBytes (fun c _ => (ih c).2)
    have h3 : ∀ l : List UInt8, (l.map fun c => (ch c).nodes).sum ≤ (l.map fun c => (ch c).stat w).sum ∧
        (l.map fun c => 2 * (ch c).nodes).sum = 2 * (l.map fun c => (ch c).nodes).sum := by
      intro l
      induction l with
      | nil => simp
      | cons c l ihl => have := (ih c).1; simp only [List.map_cons, List.sum_cons]; omega
    have h4 := h3 allBytes
    unfold sumB
    omega

/-- The first half of C39; that it fails refutes C39. -/
def C39_statement : Prop :=
  ∀ (env : Env) (s : Sys) (σ : Spec), Run env Serial s σ → ∀ (p : Key) (fuel : Nat) (c : Counter), count s.st fuel p = .ok c → c.sumSizes = c.nodes

/-- C39 does not hold: the walk comes back to the root after its first child, and counts it again. -/
theorem C39_does_not_hold : ¬ C39_statement := by
  intro hall
  obtain ⟨s, σ, h1, h2, h3, _, h5⟩ := demoFour (fun s => match count s.st 20 [] with
    | .ok c => decide (c.sumSizes = 4) && decide (c.nodes = 3)
    | .error _ => false) (by decide +kernel)
  split at h5
  · rename_i c hc
    simp only [Bool.and_eq_true, decide_eq_true_eq] at h5
    have := hall _ s σ (h1.mono fun _ _ h => h.1) [] 20 c hc
    omega
  · cases h5

/-- C39, the bounds that do hold: the sum of `NodeSizes` is at least the number of nodes and less than twice the number of nodes;
`NodesWithPrefix` is at most the sum of `NodeSizes`. -/
theorem C39_node_sizes_partial (h : Run env Calm s σ) {p : Key} (hb : p ≠ [] → 0 < s.st.nblocks) :
    ∃ N, ∀ fuel ≥ N, ∃ c, count s.st fuel p = .ok c ∧ c.nodes ≤ c.sumSizes ∧ (c.nodes = 0 → c.sumSizes = 0) ∧
      (0 < c.nodes → c.sumSizes < 2 * c.nodes) ∧ c.nodesWithPrefix ≤ c.sumSizes := by
  obtain ⟨t, seen, hI⟩ := h.inv
  obtain ⟨b0, t0, q0, d, -, h1, hh, -, -, -⟩ := hI.seek p hb
  refine ⟨2 * t0.nodes + 1, fun fuel hf => ?_⟩
  obtain ⟨c, e1, e2, e3, e4⟩ := count_tree hh h1 (fuel := fuel) (by omega)
  have hs := e4 _ _ stat_sumSizes
  have hz : Counter.sumSizes { raw := 0 } = 0 := by decide +kernel
  rw [hz, Nat.zero_add] at hs
  have hv := T.stat_visits (w := fun _ count => if count < 257 then 1 else 0) (fun p c hc => if_pos (by omega)) t0
  have hp := e4 _ _ stat_nodesWithPrefix
  refine ⟨c, e1, ?_, ?_, ?_, ?_⟩
  · omega
  · intro h0; omega
  · intro h0
    cases ht0 : t0 with
    | empty => rw [ht0] at e3; simp only [T.nodes] at e3; omega
    | leaf => rw [ht0] at e3; simp only [T.nodes] at e3; omega
    | node n pfx big ch =>
      have : t0.isNode = true := by rw [ht0]; rfl
      rw [this] at hv
      simp only [if_true] at hv
      omega
  · have := T.stat_mono (w := fun plen _ => if plen > 0 then 1 else 0) (w' := fun _ count => if count < 257 then 1 else 0)
      (fun p c hc => by rw [if_pos (show c < 257 by omega)]; split <;> omega) t0
    have hz' : Counter.nodesWithPrefix { raw := 0 } = 0 := rfl
    omega

theorem T.stat_add (w w' : Nat → Nat → Nat) (t : T) : t.stat (fun p c => w p c + w' p c) = t.stat w + t.stat w' := by
  induction t with
  | empty => rfl
  | leaf => rfl
  | node n pfx big ch ih =>
    simp only [T.stat, Nat.mul_add]
    have h : ∀ l : List UInt8, (l.map fun c => (ch c).stat fun p c => w p c + w' p c).sum =
        (l.map fun c => (ch c).stat w).sum + (l.map fun c => (ch c).stat w').sum := by
      intro l
      induction l with
      | nil => rfl
      | cons c l ihl => simp only [List.map_cons, List.sum_cons, ihl, ih c]; omega
    have := h allBytes
    unfold sumB
    omega

theorem T.stat_mul (k : Nat) (w : Nat → Nat → Nat) (t : T) : t.stat (fun p c => k * w p c) = k * t.stat w := by
  induction t with
  | empty => rfl
  | leaf => rfl
  | node n pfx big ch ih =>
    simp only [T.stat, Nat.mul_add]
    have h : ∀ l : List UInt8, (l.map fun c => (ch c).stat fun p c => k * w p c).sum = k * (l.map fun c => (ch c).stat w).sum := by
      intro l
      induction l with
      | nil => rfl
      | cons c l ihl => simp only [List.map_cons, List.sum_cons, ihl, ih c, Nat.mul_add]
    rw [show (sumB fun c => (ch c).stat fun p c => k * w p c) = k * sumB fun c => (ch c).stat w from h allBytes]
    rw [Nat.mul_left_comm]

/-- C39, how the statistics about prefixes are related.  Every visit of a node with a prefix counts at least one byte; the bytes used are
the bytes of the prefixes, one word for the length of each large prefix, and at most seven unused bytes for each prefix. -/
theorem C39_prefix_statistics_partial (h : Run env Calm s σ) {p : Key} (hb : p ≠ [] → 0 < s.st.nblocks) :
    ∃ N, ∀ fuel ≥ N, ∃ c, count s.st fuel p = .ok c ∧ c.nodesWithPrefix ≤ c.totalPrefixLength ∧ c.largePrefixes ≤ c.nodesWithPrefix ∧
      255 * c.largePrefixes ≤ c.totalPrefixLength ∧ c.totalPrefixLength + 8 * c.largePrefixes ≤ c.totalPrefixBytes ∧
      c.totalPrefixBytes ≤ c.totalPrefixLength + 8 * c.largePrefixes + 7 * c.nodesWithPrefix ∧
      (c.nodesWithPrefix = 0 ↔ c.totalPrefixLength = 0) := by
  obtain ⟨t, seen, hI⟩ := h.inv
  obtain ⟨b0, t0, q0, d, -, h1, hh, -, -, -⟩ := hI.seek p hb
  refine ⟨2 * t0.nodes + 1, fun fuel hf => ?_⟩
  obtain ⟨c, e1, e2, e3, e4⟩ := count_tree hh h1 (fuel := fuel) (by omega)
  have a1 := e4 _ _ stat_nodesWithPrefix
  have a2 := e4 _ _ stat_totalPrefixLength
  have a3 := e4 _ _ stat_totalPrefixBytes
  have a4 := e4 _ _ stat_largePrefixes
  have z1 : Counter.nodesWithPrefix { raw := 0 } = 0 := rfl
  have z2 : Counter.totalPrefixLength { raw := 0 } = 0 := rfl
  have z3 : Counter.totalPrefixBytes { raw := 0 } = 0 := rfl
  have z4 : Counter.largePrefixes { raw := 0 } = 0 := rfl
  rw [z1, Nat.zero_add] at a1
  rw [z2, Nat.zero_add] at a2
  rw [z3, Nat.zero_add] at a3
  rw [z4, Nat.zero_add] at a4
  have hslots : ∀ n, (n < 255 → n ≤ 8 * prefixSlots n ∧ 8 * prefixSlots n < n + 8) ∧
      (255 ≤ n → n + 8 ≤ 8 * prefixSlots n ∧ 8 * prefixSlots n < n + 16) := C22_prefix_slots
  have b1 := T.stat_mono (w := fun plen _ => if plen > 0 then 1 else 0) (w' := fun plen _ => plen)
    (fun p _ _ => by split <;> omega) t0
  have b2 := T.stat_mono (w := fun plen _ => if plen ≥ 255 then 1 else 0) (w' := fun plen _ => if plen > 0 then 1 else 0)
    (fun p _ _ => by split <;> split <;> omega) t0
  have b3 := T.stat_mono (w := fun plen _ => 255 * if plen ≥ 255 then 1 else 0) (w' := fun plen _ => plen)
    (fun p _ _ => by split <;> omega) t0
  have b4 := T.stat_mono (w := fun plen _ => plen + 8 * if plen ≥ 255 then 1 else 0) (w' := fun plen _ => prefixSlots plen * 8)
    (fun p _ _ => by have := hslots p; split <;> omega) t0
  have b5 := T.stat_mono (w := fun plen _ => prefixSlots plen * 8)
    (w' := fun plen _ => (plen + 8 * if plen ≥ 255 then 1 else 0) + 7 * if plen > 0 then 1 else 0)
    (fun p _ _ => by
      have := hslots p
      by_cases h0 : p > 0
      · rw [if_pos h0]; split <;> omega
      · have : p = 0 := by omega
        subst this
        simp [prefixSlots]) t0
  rw [T.stat_mul 255] at b3
  rw [T.stat_add (fun plen _ => plen) (fun plen _ => 8 * if plen ≥ 255 then 1 else 0), T.stat_mul 8] at b4
  rw [T.stat_add (fun plen _ => plen + 8 * if plen ≥ 255 then 1 else 0) (fun plen _ => 7 * if plen > 0 then 1 else 0), T.stat_mul 7,
    T.stat_add (fun plen _ => plen) (fun plen _ => 8 * if plen ≥ 255 then 1 else 0), T.stat_mul 8] at b5
  refine ⟨c, e1, by omega, by omega, by omega, by omega, by omega, fun h0 => ?_, fun h0 => by omega⟩
  have hz : t0.stat (fun plen _ => if plen > 0 then 1 else 0) = 0 := by omega
  have key : ∀ t : T, t.stat (fun plen _ => if plen > 0 then 1 else 0) = 0 → t.stat (fun plen _ => plen) = 0 := by
    intro t
    induction t with
    | empty => exact fun _ => rfl
    | leaf => exact fun _ => rfl
    | node n pfx big ch ih =>
      simp only [T.stat]
      intro h
      have hs : ∀ l : List UInt8, (l.map fun c => (ch c).stat fun plen _ => if plen > 0 then 1 else 0).sum = 0 →
          (l.map fun c => (ch c).stat fun plen _ => plen).sum = 0 := by
        intro l
        induction l with
        | nil => exact fun _ => rfl
        | cons c l ihl =>
          simp only [List.map_cons, List.sum_cons]
          intro h
          have := ih c (by omega)
          have := ihl (by omega)
          omega
      have h2 := hs allBytes (by unfold sumB at h; omega)
      have h3 : pfx.length = 0 := by
        by_cases h4 : pfx.length > 0
        · rw [if_pos h4] at h; omega
        · omega
      rw [h3]; unfold sumB; omega
  rw [a2]; exact key t0 hz

/-- The tree of the examples: the root has no prefix and is visited twice, the two other nodes have prefixes of length 1 and 0. -/
example : ∃ s σ, Run demoEnv Calm s σ ∧ 0 < s.st.nblocks ∧ ∃ c, count s.st 20 [] = .ok c ∧ c.nodes = 3 ∧ c.nodesWithPrefix = 1 ∧
    c.totalPrefixLength = 1 ∧ c.totalPrefixBytes = 8 := by
  obtain ⟨s, σ, h1, h2, h3, _, h5⟩ := demoFour (fun s => match count s.st 20 [] with
    | .ok c => decide (c.nodes = 3) && decide (c.nodesWithPrefix = 1) && decide (c.totalPrefixLength = 1) && decide (c.totalPrefixBytes = 8)
    | .error _ => false) (by decide +kernel)
  split at h5
  · rename_i c hc
    simp only [Bool.and_eq_true, decide_eq_true_eq] at h5
    exact ⟨s, σ, h1.serialInserts.insertOnly_calm, h2, c, hc, h5.1.1.1, h5.1.1.2, h5.1.2, h5.2⟩
  · cases h5

end Radix
