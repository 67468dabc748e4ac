import Verif.Properties.Readers
/-!
# The results of readers beside other operations

C42 (`Count`), C43 (`MinKey`, `MaxKey`), C37 (iterators).
-/
set_option autoImplicit false
namespace Radix
open T

/-! ## C42: the result of a `Count` beside other operations -/

/-- `n` is the number of keys in a set of keys with prefix `sp` that contains only keys stored in some of the maps, and all keys stored in all of them. -/
def CountsBetween (W : List Map) (sp : Key) (n : Nat) : Prop :=
  ∃ l : List Key, l.Nodup ∧ n = l.length ∧ (∀ k ∈ l, sp <+: k ∧ ∃ M ∈ W, M k ≠ none) ∧ ∀ k, sp <+: k → (∀ M ∈ W, M k ≠ none) → k ∈ l

/-- C42: a `Count` that ends (in the model: not by the bound on its number of iterations) returns such a number, for the maps that were current while it
was running. -/
def C42_statement : Prop :=
  ∀ (env : Env) (a : Nat) (s s' : Sys) (σ σ' : Spec) (fuel : Nat) (sp : Key) (r : Res Counter), Begins env (fun _ _ => True) a .walk s σ → 0 < s.st.nblocks →
    Walks env (fun _ _ => True) (During a) s σ (countP fuel sp) s' σ' (.ret r) → r = .error .fuel ∨ ∃ c, r = .ok c ∧ CountsBetween (σ'.window a) sp c.leaves

section
variable {env : Env} {a : Nat} {s s' : Sys} {σ σ' : Spec}

theorem Walks.result {α : Type} {L : Prop} {E : Panic → Prop} {Q : (T → Prop) → α → Prop} {c : Call} {p : Prog α} {r : Res α}
    (hb : Begins env Calm a c s σ) (hnb : 0 < s.st.nblocks) (hp : ∀ S, Safe env a L E Q p S) (hw : Walks env Calm (During a) s σ p s' σ' (.ret r)) :
    ∃ t seen S, Inv env s' σ' t seen ∧ (s'.proc a).active = true ∧ (∀ x, S x → seen a x) ∧
      ((∃ v, r = .ok v ∧ Q S v) ∨ ∃ e, r = .error e ∧ E e) := by
  obtain ⟨hr, t, seen, hI, hs, ha⟩ := hb.inv
  obtain ⟨t', seen', S, h1, h2, h3, h4, h5⟩ := hw.safe hI hs ha hnb hp
  refine ⟨t', seen', S, h1, hw.active ha, h3, ?_⟩
  cases r with
  | ok v => exact .inl ⟨v, rfl, h4⟩
  | error e => exact .inr ⟨e, rfl, h4⟩

theorem nodup_keys {l : List (Key × Word)} (h : l.Pairwise fun x y => x.1 < y.1) : (l.map (·.1)).Nodup := by
  rw [List.nodup_iff_pairwise_ne, List.pairwise_map]
  exact h.imp fun {x y} h e => by rw [e] at h; exact List.lt_irrefl _ h

/-- C42, where the races listed at `Calm` do not show: the number is such a number, except that it may be 1 if no key with the (non-empty) prefix is stored
all the time. -/
theorem C42_partial {fuel : Nat} {sp : Key} {r : Res Counter} (hb : Begins env Calm a .walk s σ)
    (hw : Walks env Calm (During a) s σ (countP fuel sp) s' σ' (.ret r)) :
    r = .error .fuel ∨ ∃ c, r = .ok c ∧ (CountsBetween (σ'.window a) sp c.leaves ∨
      (c.leaves = 1 ∧ sp ≠ [] ∧ ∀ k, sp <+: k → ∃ M ∈ σ'.window a, M k = none)) := by
  obtain ⟨t, seen, S, hI, ha, hS, h⟩ := hw.result (L := False) hb hb.blocks fun S => safe_count fuel sp S
  rcases h with ⟨c, rfl, l, hc, h⟩ | ⟨e, rfl, rfl⟩
  · refine .inr ⟨c, rfl, ?_⟩
    rcases h with h | ⟨k, v, rfl, ho, honly⟩
    · refine .inl ⟨l.map (·.1), nodup_keys h.sorted, by rw [hc, List.length_map], fun k hk => ?_, fun k hp hk => ?_⟩
      · obtain ⟨x, hx, rfl⟩ := List.mem_map.1 hk
        obtain ⟨h1, h2⟩ := h.sound x hx
        obtain ⟨M, h3, h4⟩ := h2.inWindow hI ha hS
        exact ⟨h1, M, h3, by rw [h4]; simp⟩
      · obtain ⟨v, hv⟩ := h.complete k (Always.ofWindow hI ha hS hk) hp
        exact List.mem_map.2 ⟨_, hv, rfl⟩
    · by_cases hp : sp <+: k
      · refine .inl ⟨[k], List.pairwise_singleton _ _, hc, fun k' hk' => ?_, fun k' hp' hk' => ?_⟩
        · obtain rfl := List.mem_singleton.1 hk'
          obtain ⟨M, h3, h4⟩ := ho.inWindow hI ha hS
          exact ⟨hp, M, h3, by rw [h4]; simp⟩
        · exact List.mem_singleton.2 (honly k' (Always.ofWindow hI ha hS hk') hp')
      · refine .inr ⟨hc, fun e => hp (e ▸ List.nil_prefix), fun k' hp' => ?_⟩
        apply Classical.byContradiction
        intro hn
        have : k' = k := honly k' (Always.ofWindow hI ha hS fun M hM h => hn ⟨M, hM, h⟩) hp'
        exact hp (this ▸ hp')
  · exact .inl rfl
end

theorem Prog.run_congr {α : Type} {st st' : St} (hm : st'.mem = st.mem) (hr : st'.root = st.root) (hb : st'.nblocks = st.nblocks) :
    ∀ p : Prog α, p.run st' = p.run st
  | .ret _ => rfl
  | .root k => by simp only [Prog.run, hr]; exact Prog.run_congr hm hr hb _
  | .blocks k => by simp only [Prog.run, hb]; exact Prog.run_congr hm hr hb _
  | .load _ k => by simp only [Prog.run, hm]; exact Prog.run_congr hm hr hb _

/-- An allocator that is not in use begins a `Count` or a scan. -/
theorem Begins.walk {env : Env} {G : Sys → Act → Prop} {s : Sys} {σ : Spec} {a : Nat} (h : Run env G s σ) (hid : s.proc a = .idle) (ha : a < s.st.nalloc)
    (hG : G s (.begin a .walk)) (hG' : ∀ s, G s (.arm a)) :
    ∃ s', Begins env G a .walk s' (σ.next (.begun a .walk)) ∧ s'.st.mem = s.st.mem ∧ s'.st.root = s.st.root ∧ s'.st.nblocks = s.st.nblocks := by
  have h1 : exec env.fetch s (.begin a .walk) = some (.ok (s.set a s.st (.arm s.st.epoch .walk), .none)) := by simp only [exec, hid, if_pos ha]
  have hp1 : (s.set a s.st (.arm s.st.epoch .walk)).proc a = .arm s.st.epoch .walk := by simp [Sys.set, upd_same]
  have h2 : exec env.fetch (s.set a s.st (.arm s.st.epoch .walk)) (.arm a) = some (.ok ((s.set a s.st (.arm s.st.epoch .walk)).set a
      { s.st with resv := upd s.st.resv a s.st.epoch } .walk, .begun a .walk)) := by
    simp only [exec, hp1]; rfl
  exact ⟨_, ⟨_, σ, .step (act := .begin a .walk) h trivial hG h1, trivial, hG' _, h2, rfl⟩, rfl, rfl, rfl⟩

/-- The result of a reader that has ended. -/
def resultB {α : Type} (check : α → Bool) : Prog α → Bool
  | .ret (.ok v) => check v
  | _ => false

theorem resultB_sound {α : Type} {check : α → Bool} {p : Prog α} (h : resultB check p = true) : ∃ v, p = .ret (.ok v) ∧ check v = true := by
  match p, h with
  | .ret (.ok v), h => exact ⟨v, rfl, h⟩

/-- C42 does not hold, even without other operations: `Count("appx")` returns 1, with "apple" and "april" stored. -/
theorem C42_does_not_hold : ¬ C42_statement := by
  intro hall
  obtain ⟨s, σ, h1, h2⟩ := Run.ofCheck (h := demoKeys_good) (G := Serial) serial_sound (n := 2) (acts := demoActs.take 13)
    (check := fun s _ => decide (0 < s.st.nblocks) && (s.proc 1).isIdle && decide (1 < s.st.nalloc) &&
      decide (partialSearch s.st [97, 112, 112, 120] = .ok (buildLeaf 112 0, 2))) (by decide +kernel)
  simp only [Bool.and_eq_true, decide_eq_true_eq] at h2
  obtain ⟨⟨⟨hb, hid⟩, ha⟩, h4⟩ := h2
  have h3 := h1.calm.listing_none (p := [97, 112, 112, 120]) (by decide)
  obtain ⟨s2, g1, g2, g3, g4⟩ := Begins.walk (G := fun _ _ => True) (h1.mono fun _ _ _ => trivial) (Proc.idle_of hid) ha trivial fun _ => trivial
  have h5 := hall _ _ _ _ _ _ _ _ _ g1 (by rw [g4]; exact hb) (Walks.alone s2 _ (countP 1 [97, 112, 112, 120]))
  rw [Prog.run_congr g2 g3 g4, run_countP] at h5
  unfold count at h5
  simp only [bind, Except.bind, h4] at h5
  have e1 : buildLeaf 112 0 ≠ 0 := by decide +kernel
  have e2 : isLeaf (buildLeaf 112 0) = true := by decide +kernel
  rw [if_neg e1, if_pos e2] at h5
  rcases h5 with h5 | ⟨c, h5, l, _, h7, h8, _⟩
  · cases h5
  · cases h5
    cases l with
    | nil => cases h7
    | cons k l =>
      obtain ⟨hp, M, hM, hk⟩ := h8 k (.head _)
      simp only [Spec.next, upd_same, List.mem_singleton] at hM
      subst hM
      obtain ⟨v, hv⟩ := Option.ne_none_iff_exists'.1 hk
      have := (h3.2 k v).2 ⟨hv, hp⟩
      simp at this

/-- "bob" is deleted while `Count("b")` is running, and still counted. -/
example : ∃ s σ s' σ' c, Begins demoEnv Calm 1 .walk s σ ∧ Walks demoEnv Calm (During 1) s σ (countP 20 [98]) s' σ' (.ret (.ok c)) ∧ c.leaves = 2 ∧
    σ'.map [98, 111, 98] = none := by
  obtain ⟨s, σ, s', σ', p', h1, _, h2, h3⟩ := demoWalk (p := countP 20 [98]) (key := [98, 111, 98]) (i := 6) (j := 5)
    (check := fun _ σ' p' => decide (σ'.map [98, 111, 98] = none) && resultB (fun c => c.leaves == 2) p') (by decide +kernel)
  simp only [Bool.and_eq_true, decide_eq_true_eq] at h3
  obtain ⟨c, rfl, h⟩ := resultB_sound h3.2
  exact ⟨s, σ, s', σ', c, h1, h2, eq_of_beq h, h3.1⟩

/-! ## C43: the results of `MinKey` and `MaxKey` beside other operations -/

/-- `Walks`, with the maps that were current. -/
inductive Sees (env : Env) (G : Sys → Act → Prop) (K : Sys → Ev → Prop) {α : Type} (s : Sys) (σ : Spec) (p : Prog α) : List Map → Sys → Spec → Prog α → Prop
  | refl : Sees env G K s σ p [σ.map] s σ p
  | other {W s1 σ1 q act s2 ev} : Sees env G K s σ p W s1 σ1 q → env.Allowed s1 act → G s1 act → exec env.fetch s1 act = some (.ok (s2, ev)) → K s2 ev →
      Sees env G K s σ p ((σ1.next ev).map :: W) s2 (σ1.next ev) q
  | load {W s1 σ1 q q'} : Sees env G K s σ p W s1 σ1 q → Walks env G (fun _ _ => False) s1 σ1 q s1 σ1 q' → Sees env G K s σ p W s1 σ1 q'

/-- The first key in the order `lt`: stored in some of the maps, and no key that is stored in all maps comes before it. -/
def EndBetween (lt : Key → Key → Prop) (W : List Map) (sp : Key) : Option Word → Prop
  | some v => ∃ k, sp <+: k ∧ (∃ M ∈ W, M k = some v) ∧ ∀ k', sp <+: k' → (∀ M ∈ W, M k' ≠ none) → ¬ lt k' k
  | none => ∀ k, sp <+: k → ∃ M ∈ W, M k = none

/-- C43: `MinKey` and `MaxKey` that end (in the model: not by the bound on the number of iterations) return the first and last key in this sense, for the
maps that were current during the call. -/
def C43_statement : Prop :=
  ∀ (env : Env) (s s' : Sys) (σ σ' : Spec) (fuel : Nat) (sp : Key) (W : List Map) (r : Res (Option Word)), Run env (fun _ _ => True) s σ → 0 < s.st.nblocks →
    (Sees env (fun _ _ => True) (fun _ _ => True) s σ (minKeyP fuel sp) W s' σ' (.ret r) → r = .error .fuel ∨ ∃ v, r = .ok v ∧ EndBetween (· < ·) W sp v) ∧
    (Sees env (fun _ _ => True) (fun _ _ => True) s σ (maxKeyP fuel sp) W s' σ' (.ret r) → r = .error .fuel ∨ ∃ v, r = .ok v ∧ EndBetween (· > ·) W sp v)

/-- C43 does not hold, even without other operations: `MinKey("appx")` returns the value of "apple". -/
theorem C43_does_not_hold : ¬ C43_statement := by
  intro hall
  obtain ⟨s, σ, h1, h2, h3, h4⟩ := demoWrongLeaf
  have h5 := (hall _ s s σ σ 1 [97, 112, 112, 120] [σ.map] _ (h1.mono fun _ _ _ => trivial) h2).1 (.load .refl (Walks.alone s σ _))
  rw [run_minKeyP] at h5
  unfold minKey at h5
  simp only [bind, Except.bind, h4] at h5
  have e1 : buildLeaf 112 0 ≠ 0 := by decide +kernel
  have e2 : isLeaf (buildLeaf 112 0) = true := by decide +kernel
  rw [if_neg e1, if_pos e2] at h5
  rcases h5 with h5 | ⟨v, h5, h6⟩
  · cases h5
  · cases h5
    obtain ⟨k, h7, ⟨M, h8, h9⟩, _⟩ := h6
    obtain rfl := List.mem_singleton.1 h8
    have := (h3.2 k _).2 ⟨h9, h7⟩
    simp at this

section
variable {env : Env} {a : Nat} {s s' : Sys} {σ σ' : Spec}

theorem EndOf.inWindow {t : T} {seen : Nat → T → Prop} {S : T → Prop} {lt : Key → Key → Prop} {sp : Key} {v : Word} (hI : Inv env s σ t seen)
    (ha : (s.proc a).active = true) (hS : ∀ x, S x → seen a x) (h : EndOf lt S sp v) :
    ∃ k, (∃ M ∈ σ.window a, M k = some v) ∧ ∀ k', sp <+: k' → (∀ M ∈ σ.window a, M k' ≠ none) → sp <+: k ∧ ¬ lt k' k := by
  obtain ⟨k, v', rfl, h1, h2⟩ := h
  rw [h1.trunc hI ha hS]
  exact ⟨k, h1.inWindow hI ha hS, fun k' hp hk => h2 k' (Always.ofWindow hI ha hS hk) hp⟩

/-- C43 for `MinKey`, where the races listed at `Calm` do not show, and for calls during which some operation is running that has begun before, with the
maps since then: a value that is returned was stored; if keys with the prefix are stored all the time, it belongs to a key with the prefix, and none of
these keys is smaller.  Missing: calls that return no value (in emptied parts of the tree, `MinKey` gives up). -/
theorem C43_min_partial {c : Call} {fuel : Nat} {sp : Key} {r : Res (Option Word)} (hb : Begins env Calm a c s σ) (hnb : 0 < s.st.nblocks)
    (hw : Walks env Calm (During a) s σ (minKeyP fuel sp) s' σ' (.ret r)) :
    r = .error .fuel ∨ ∃ o, r = .ok o ∧ ∀ v, o = some v →
      ∃ k, (∃ M ∈ σ'.window a, M k = some v) ∧ ∀ k', sp <+: k' → (∀ M ∈ σ'.window a, M k' ≠ none) → sp <+: k ∧ ¬ k' < k := by
  obtain ⟨t, seen, S, hI, ha, hS, h⟩ := hw.result (L := False) hb hnb fun S => safe_minKey (E := (· = Panic.fuel)) rfl fuel sp S
  rcases h with ⟨o, rfl, h⟩ | ⟨e, rfl, rfl⟩
  · exact .inr ⟨o, rfl, fun v hv => (h v hv).inWindow hI ha hS⟩
  · exact .inl rfl

/-- C43 for `MaxKey`, in the same way. -/
theorem C43_max_partial {c : Call} {fuel : Nat} {sp : Key} {r : Res (Option Word)} (hb : Begins env Calm a c s σ) (hnb : 0 < s.st.nblocks)
    (hw : Walks env Calm (During a) s σ (maxKeyP fuel sp) s' σ' (.ret r)) :
    r = .error .fuel ∨ ∃ o, r = .ok o ∧ ∀ v, o = some v →
      ∃ k, (∃ M ∈ σ'.window a, M k = some v) ∧ ∀ k', sp <+: k' → (∀ M ∈ σ'.window a, M k' ≠ none) → sp <+: k ∧ ¬ k < k' := by
  obtain ⟨t, seen, S, hI, ha, hS, h⟩ := hw.result (L := False) hb hnb fun S => safe_maxKey (E := (· = Panic.fuel)) rfl fuel sp S
  rcases h with ⟨o, rfl, h⟩ | ⟨e, rfl, rfl⟩
  · exact .inr ⟨o, rfl, fun v hv => (h v hv).inWindow hI ha hS⟩
  · exact .inl rfl
end

/-- "bar" is deleted while `MinKey("b")` is running, and still found; the same for "bob" and `MaxKey("b")`. -/
example : ∃ s σ s' σ', Begins demoEnv Calm 1 .walk s σ ∧ 0 < s.st.nblocks ∧ Walks demoEnv Calm (During 1) s σ (minKeyP 20 [98]) s' σ' (.ret (.ok (some 3))) ∧
    σ'.map [98, 97, 114] = none := by
  obtain ⟨s, σ, s', σ', p', h1, h0, h2, h3⟩ := demoWalk (p := minKeyP 20 [98]) (key := [98, 97, 114]) (i := 4) (j := 5)
    (check := fun _ σ' p' => decide (σ'.map [98, 97, 114] = none) && resultB (fun c => c == some 3) p') (by decide +kernel)
  simp only [Bool.and_eq_true, decide_eq_true_eq] at h3
  obtain ⟨c, rfl, h⟩ := resultB_sound h3.2
  obtain rfl := eq_of_beq h
  exact ⟨s, σ, s', σ', h1, h0, h2, h3.1⟩

example : ∃ s σ s' σ', Begins demoEnv Calm 1 .walk s σ ∧ 0 < s.st.nblocks ∧ Walks demoEnv Calm (During 1) s σ (maxKeyP 20 [98]) s' σ' (.ret (.ok (some 2))) ∧
    σ'.map [98, 111, 98] = none := by
  obtain ⟨s, σ, s', σ', p', h1, h0, h2, h3⟩ := demoWalk (p := maxKeyP 20 [98]) (key := [98, 111, 98]) (i := 4) (j := 5)
    (check := fun _ σ' p' => decide (σ'.map [98, 111, 98] = none) && resultB (fun c => c == some 2) p') (by decide +kernel)
  simp only [Bool.and_eq_true, decide_eq_true_eq] at h3
  obtain ⟨c, rfl, h⟩ := resultB_sound h3.2
  obtain rfl := eq_of_beq h
  exact ⟨s, σ, s', σ', h1, h0, h2, h3.1⟩

/-! ## C37: iterators -/

/-- An iterator over the prefix `p` that is used while other operations run: `out` are the results of its calls of `Next` so far (`none`: false), `W` the
maps that were current since the iterator has been made.  A call of `Next` that scans takes an allocator and reserves the epoch (`arm`); that the
allocator is released afterwards is a step of the others. -/
inductive Iterates (env : Env) (G : Sys → Act → Prop) (p : Key) : Sys → Spec → Iter → List (Option Word) → List Map → Prop
  | new {s σ} : Run env G s σ → Iterates env G p s σ (Iter.new p) [] [σ.map]
  | other {s σ it out W act s' ev} : Iterates env G p s σ it out W → env.Allowed s act → G s act → exec env.fetch s act = some (.ok (s', ev)) →
      Iterates env G p s' (σ.next ev) it out ((σ.next ev).map :: W)
  | cached {s σ it out W b it'} : Iterates env G p s σ it out W → it.prefetched[it.pp]? ≠ none ∨ it.done = true → it.nextP 0 = .ret (.ok (b, it')) →
      Iterates env G p s σ it' (out ++ [if b then some it'.value else none]) W
  | scan {s0 σ0 it out W a s fuel s' σ' b it'} : Iterates env G p s0 σ0 it out W → it.prefetched[it.pp]? = none → it.done = false →
      env.Allowed s0 (.arm a) → G s0 (.arm a) → exec env.fetch s0 (.arm a) = some (.ok (s, .begun a .walk)) →
      Walks env G (During a) s (σ0.next (.begun a .walk)) (it.nextP fuel) s' σ' (.ret (.ok (b, it'))) →
      Iterates env G p s' σ' it' (out ++ [if b then some it'.value else none]) (σ'.window a ++ W)

/-- How often a value of the key is among the results. -/
def returned (fetch : Word → Key) (k : Key) (out : List (Option Word)) : Nat := out.countP fun o => o.any fun v => fetch v == k

/-- C37: a key that is stored all the time is returned at most once, and once if `Next` has returned false; if the tree stops changing, `Next` returns false
after some calls. -/
def C37_statement : Prop :=
  ∀ (env : Env) (p : Key) (s : Sys) (σ : Spec) (it : Iter) (out : List (Option Word)) (W : List Map), Iterates env (fun _ _ => True) p s σ it out W →
    0 < s.st.nblocks →
    (∀ k, p <+: k → (∀ M ∈ W, M k ≠ none) → returned env.fetch k out ≤ 1 ∧ (none ∈ out → returned env.fetch k out = 1)) ∧
    ∃ N, ∀ fuel ≥ N, ∃ n r, Iter.run s.st fuel n it = .ok r ∧ none ∈ r

/-- Whatever the loads give, a result satisfies `Q`. -/
def Prog.Ends {α : Type} (Q : α → Prop) : Prog α → Prop
  | .ret (.ok v) => Q v
  | .ret (.error _) => True
  | .root k => ∀ w, Ends Q (k w)
  | .blocks k => ∀ n, Ends Q (k n)
  | .load _ k => ∀ w, Ends Q (k w)

theorem Prog.Ends.bind {α β : Type} {Q : α → Prop} {R : β → Prop} {f : α → Prog β} : ∀ {p : Prog α}, p.Ends Q → (∀ v, Q v → (f v).Ends R) → (p >>= f).Ends R
  | .ret (.ok v), h, hf => hf v h
  | .ret (.error _), _, _ => trivial
  | .root _, h, hf => fun w => Prog.Ends.bind (h w) hf
  | .blocks _, h, hf => fun n => Prog.Ends.bind (h n) hf
  | .load _ _, h, hf => fun w => Prog.Ends.bind (h w) hf

theorem Prog.Ends.any {α : Type} : ∀ p : Prog α, p.Ends fun _ => True
  | .ret (.ok _) => trivial
  | .ret (.error _) => trivial
  | .root k => fun w => Prog.Ends.any (k w)
  | .blocks k => fun n => Prog.Ends.any (k n)
  | .load _ k => fun w => Prog.Ends.any (k w)

theorem Walks.ends {env : Env} {G : Sys → Act → Prop} {K : Sys → Ev → Prop} {α : Type} {s s' : Sys} {σ σ' : Spec} {p p' : Prog α} {Q : α → Prop}
    (hw : Walks env G K s σ p s' σ' p') (h : p.Ends Q) : p'.Ends Q := by
  induction hw with
  | refl => exact h
  | other _ _ _ _ _ ih => exact ih
  | root _ ih => exact ih _
  | blocks _ ih => exact ih _
  | load _ ih => exact ih _

theorem scanLoopP_ends : ∀ (fuel : Nat) (raw : Word) (next : Nat) (stack : List ItPos) (pf : List Word),
    (scanLoopP fuel raw next stack pf).Ends fun r => r.2 = none ∨ prefetchLength < r.1.length
  | 0, _, _, _, _ => trivial
  | fuel + 1, raw, next, stack, pf => by
    unfold scanLoopP
    refine (Prog.Ends.any _).bind fun _ _ => (Prog.Ends.any _).bind fun _ _ => (Prog.Ends.any _).bind ?_
    rintro ⟨vs, r⟩ -
    simp only
    cases r with
    | some x => exact (Prog.Ends.any _).bind fun _ _ => scanLoopP_ends fuel _ _ _ _
    | none =>
      cases stack with
      | nil => exact .inl rfl
      | cons pos rest =>
        simp only
        split
        · rename_i h
          exact (Prog.Ends.any _).bind fun _ _ => .inr h
        · exact scanLoopP_ends fuel _ _ _ _

/-- A call that scans either reaches the end or fetches more than 256 values. -/
theorem nextP_ends (fuel : Nat) (it : Iter) (hd : it.done = false) (hp : it.prefetched[it.pp]? = none) :
    (it.nextP fuel).Ends fun r => (r.2.done = true ∧ (r.1 = false → r.2.prefetched.drop r.2.pp = [])) ∨ (r.1 = true ∧ r.2.pp = 1 ∧ prefetchLength < r.2.prefetched.length) := by
  unfold Iter.nextP
  rw [hp]
  simp only [hd, Bool.false_eq_true, if_false]
  refine (Prog.Ends.any _).bind ?_
  rintro ⟨raw, d⟩ -
  simp only
  split
  · exact .inl ⟨rfl, fun _ => List.drop_eq_nil_of_le (List.getElem?_eq_none_iff.1 hp)⟩
  split
  · exact .inl ⟨rfl, nofun⟩
  refine (Prog.Ends.any _).bind ?_
  rintro ⟨raw', next, stack⟩ -
  refine (scanLoopP_ends fuel raw' next stack []).bind ?_
  rintro ⟨pf, res⟩ h
  simp only at h ⊢
  cases pf with
  | nil =>
    cases res with
    | none => exact .inl ⟨rfl, fun _ => List.drop_nil⟩
    | some k => rcases h with h | h <;> cases h
  | cons v pf =>
    cases res with
    | none => exact .inl ⟨rfl, nofun⟩
    | some k => exact .inr ⟨rfl, rfl, h.resolve_left nofun⟩

/-- The keys in the list have the prefix, are in order, and were each stored at some moment with the value in the list; up to the last key in the list,
every key with the prefix that was stored all the time is in the list, and if `fin` all of them are. -/
structure Lists (W : List Map) (p : Key) (l : List (Key × Word)) (fin : Prop) : Prop where
  sorted : l.Pairwise fun x y => x.1 < y.1
  sound : ∀ x ∈ l, p <+: x.1 ∧ ∃ M ∈ W, M x.1 = some x.2
  upto : ∀ x ∈ l, ∀ k, p <+: k → (∀ M ∈ W, M k ≠ none) → ¬ x.1 < k → k ∈ l.map (·.1)
  all : fin → ∀ k, p <+: k → (∀ M ∈ W, M k ≠ none) → k ∈ l.map (·.1)

theorem Lists.more {W W' : List Map} {p : Key} {l : List (Key × Word)} {fin : Prop} (h : Lists W p l fin) (hW : ∀ M ∈ W, M ∈ W') : Lists W' p l fin where
  sorted := h.sorted
  sound x hx := by
    obtain ⟨h1, M, h2, h3⟩ := h.sound x hx
    exact ⟨h1, M, hW M h2, h3⟩
  upto x hx k h1 h2 := h.upto x hx k h1 fun M hM => h2 M (hW M hM)
  all hf k h1 h2 := h.all hf k h1 fun M hM => h2 M (hW M hM)

/-- The first part of the list. -/
theorem Lists.left {W : List Map} {p : Key} {l rest : List (Key × Word)} {fin fin' : Prop} (h : Lists W p (l ++ rest) fin) (hf : fin' → fin ∧ rest = []) :
    Lists W p l fin' where
  sorted := (List.pairwise_append.1 h.sorted).1
  sound x hx := h.sound x (by simp [hx])
  upto x hx k h1 h2 h3 := by
    have := h.upto x (by simp [hx]) k h1 h2 h3
    rw [List.map_append, List.mem_append] at this
    rcases this with h4 | h4
    · exact h4
    · obtain ⟨y, hy, rfl⟩ := List.mem_map.1 h4
      exact absurd ((List.pairwise_append.1 h.sorted).2.2 x hx y hy) h3
  all h' k h1 h2 := by
    obtain ⟨g1, rfl⟩ := hf h'
    simpa using h.all g1 k h1 h2

section
variable {env : Env} {a : Nat} {s s' : Sys} {σ σ' : Spec}

theorem Once.fetch {t : T} {seen : Nat → T → Prop} {S : T → Prop} (hI : Inv env s σ t seen) (ha : (s.proc a).active = true) (hS : ∀ x, S x → seen a x) {k : Key}
    {v : Word} (h : Once S k v) : env.fetch v = k := by
  obtain ⟨t', h1, h2⟩ := h
  exact ((hI.mem.ok a t' ha (hS t' h1)).wf.has h2).2.2.1

theorem Part.inWindow {t : T} {seen : Nat → T → Prop} {S : T → Prop} {p : Key} {l : List (Key × Word)} {fin : Prop} (hI : Inv env s σ t seen)
    (ha : (s.proc a).active = true) (hS : ∀ x, S x → seen a x) (h : Part S (fun k => p <+: k) l fin) : Lists (σ.window a) p l fin where
  sorted := h.sorted
  sound x hx := ⟨(h.sound x hx).1, (h.sound x hx).2.inWindow hI ha hS⟩
  upto x hx k h1 h2 h3 := by
    obtain ⟨v, hv⟩ := h.upto x hx k (Always.ofWindow hI ha hS h2) h1 h3
    exact List.mem_map.2 ⟨_, hv, rfl⟩
  all hf k h1 h2 := by
    obtain ⟨v, hv⟩ := h.all hf k (Always.ofWindow hI ha hS h2) h1
    exact List.mem_map.2 ⟨_, hv, rfl⟩

/-- A call of `Next` that scans, where the races listed at `Calm` do not show.  Unless it panics at the stored position, it returns and fetches values of
keys with the prefix that were stored at some moment during the call, in order; the first call of an iterator gets, up to the last one, all that were stored
during the whole call.  The exception is a subtree that is a single leaf. -/
theorem C37_scan_partial {fuel : Nat} {it : Iter} {r : Res (Bool × Iter)} (hb : Begins env Calm a .walk s σ) (hd : it.done = false)
    (hp : it.prefetched[it.pp]? = none) (hw : Walks env Calm (During a) s σ (it.nextP fuel) s' σ' (.ret r)) :
    r = .error .fuel ∨ r = .error .index ∨ ∃ b it', r = .ok (b, it') ∧ it'.searchPrefix = it.searchPrefix ∧
      ((∃ l, b = !l.isEmpty ∧ (b = true → it'.value :: it'.prefetched.drop it'.pp = l.map (·.2)) ∧ l.Pairwise (fun x y => x.1 < y.1) ∧
          (∀ x ∈ l, it.searchPrefix <+: x.1 ∧ (∃ M ∈ σ'.window a, M x.1 = some x.2) ∧ env.fetch x.2 = x.1) ∧
          (it.resumeAt = [] ∧ it.prefetched = [] → Lists (σ'.window a) it.searchPrefix l (it'.done = true))) ∨
        (b = true ∧ it'.done = true ∧ (it.resumeAt = [] ∧ it.prefetched = [] → it'.prefetched = []) ∧
          ∃ k, (∃ M ∈ σ'.window a, M k = some it'.value) ∧ env.fetch it'.value = k ∧
            ∀ k', it.searchPrefix <+: k' → (∀ M ∈ σ'.window a, M k' ≠ none) → k' = k)) := by
  obtain ⟨t, seen, S, hI, ha, hS, h⟩ := hw.result hb hb.blocks fun S =>
    safe_next (E := fun e => e = Panic.fuel ∨ e = Panic.index) (.inl rfl) (.inr rfl) fuel it hd hp S
  rcases h with ⟨⟨b, it'⟩, rfl, h1, h⟩ | ⟨e, rfl, rfl | rfl⟩
  · refine .inr (.inr ⟨b, it', rfl, h1, ?_⟩)
    rcases h with ⟨l, g1, g2, g3, g4, g5⟩ | ⟨g1, g2, k, v, g3, g4, g5, g6⟩
    · refine .inl ⟨l, g1, fun hb => ?_, g3, fun x hx => ⟨(g4 x hx).1, (g4 x hx).2.inWindow hI ha hS, (g4 x hx).2.fetch hI ha hS⟩, fun h => (g5 h).inWindow hI ha hS⟩
      rw [g2 hb]
      exact List.map_congr_left fun x hx => (g4 x hx).2.trunc hI ha hS
    · refine .inr ⟨g1, g2, g4, k, ?_, ?_, fun k' hp hk => g6 k' (Always.ofWindow hI ha hS hk) hp⟩
      all_goals
        simp only at g3
        rw [g3, g5.trunc hI ha hS]
      · exact g5.inWindow hI ha hS
      · exact g5.fetch hI ha hS
  · exact .inl rfl
  · exact .inr (.inl rfl)
end

theorem Iterates.run {env : Env} {G : Sys → Act → Prop} {p : Key} {s : Sys} {σ : Spec} {it : Iter} {out : List (Option Word)} {W : List Map}
    (h : Iterates env G p s σ it out W) : Run env G s σ := by
  induction h with
  | new h => exact h
  | other _ h1 h2 h3 ih => exact .step ih h1 h2 h3
  | cached _ _ _ ih => exact ih
  | scan _ _ _ h1 h2 h3 h4 ih => exact h4.run (.step ih h1 h2 h3)

/-- The results of an iteration, or of one that ends in a single leaf. -/
def Yields (W : List Map) (p : Key) (l : List (Key × Word)) (fin : Prop) : Prop :=
  Lists W p l fin ∨ ∃ k v, (l = [] ∧ ¬ fin ∨ l = [(k, v)]) ∧ (∃ M ∈ W, M k = some v) ∧ ¬ p <+: k ∧ ∀ k', p <+: k' → ∃ M ∈ W, M k' = none

theorem Yields.more {W W' : List Map} {p : Key} {l : List (Key × Word)} {fin : Prop} (h : Yields W p l fin) (hW : ∀ M ∈ W, M ∈ W') : Yields W' p l fin := by
  rcases h with h | ⟨k, v, h1, ⟨M, h2, h3⟩, h4, h5⟩
  · exact .inl (h.more hW)
  · refine .inr ⟨k, v, h1, ⟨M, hW M h2, h3⟩, h4, fun k' hp => ?_⟩
    obtain ⟨M, h6, h7⟩ := h5 k' hp
    exact ⟨M, hW M h6, h7⟩

theorem Yields.left {W : List Map} {p : Key} {l rest : List (Key × Word)} {fin fin' : Prop} (h : Yields W p (l ++ rest) fin) (hf : fin' → fin ∧ rest = []) :
    Yields W p l fin' := by
  rcases h with h | ⟨k, v, h1, h2⟩
  · exact .inl (h.left hf)
  · refine .inr ⟨k, v, ?_, h2⟩
    rcases h1 with ⟨h1, h1'⟩ | h1
    · obtain ⟨rfl, rfl⟩ := List.append_eq_nil_iff.1 h1
      exact .inl ⟨rfl, fun h => h1' (hf h).1⟩
    · cases l with
      | nil => exact .inl ⟨rfl, fun h => by rw [(hf h).2] at h1; cases h1⟩
      | cons x l =>
        have := congrArg List.length h1
        simp only [List.cons_append, List.length_cons, List.length_append, List.length_nil] at this
        obtain rfl : l = [] := List.length_eq_zero_iff.1 (by omega)
        obtain rfl : rest = [] := List.length_eq_zero_iff.1 (by simpa using this)
        exact .inr (by simpa using h1)

/-- The state of an iterator that has made at most one scan. -/
def OneScan (fetch : Word → Key) (W : List Map) (p : Key) (it : Iter) (out : List (Option Word)) : Prop :=
  (out = [] ∧ it = Iter.new p) ∨
  ∃ l rest m, out = l.map (fun x => some x.2) ++ List.replicate m none ∧ it.prefetched.drop it.pp = rest.map (·.2) ∧ (0 < m → rest = [] ∧ it.done = true) ∧
    (it.done = true ∨ prefetchLength < (l ++ rest).length) ∧ (∀ x ∈ l ++ rest, fetch x.2 = x.1) ∧ Yields W p (l ++ rest) (it.done = true)

theorem Iterates.fresh {env : Env} {p : Key} {s : Sys} {σ : Spec} {it : Iter} {out : List (Option Word)} {W : List Map}
    (h : Iterates env Calm p s σ it out W) : out.length ≤ 257 → OneScan env.fetch W p it out := by
  induction h with
  | new => exact fun _ => .inl ⟨rfl, rfl⟩
  | other _ _ _ _ ih =>
    intro hl
    rcases ih hl with h | ⟨l, rest, m, h1, h2, h3, h4, h6, h5⟩
    · exact .inl h
    · exact .inr ⟨l, rest, m, h1, h2, h3, h4, h6, h5.more fun M hM => .tail _ hM⟩
  | @cached s σ it out W b it' h hc hn ih =>
    intro hl
    simp only [List.length_append, List.length_singleton] at hl
    rcases ih (by omega) with ⟨_, rfl⟩ | ⟨l, rest, m, h1, h2, h3, h4, h6, h5⟩
    · rcases hc with h | h
      · exact absurd rfl h
      · cases h
    · unfold Iter.nextP at hn
      cases hv : it.prefetched[it.pp]? with
      | some v =>
        rw [hv] at hn
        simp only [pure, Prog.ret.injEq, Except.ok.injEq, Prod.mk.injEq] at hn
        obtain ⟨rfl, rfl⟩ := hn
        have hd := List.drop_eq_getElem_cons (List.getElem?_eq_some_iff.1 hv).1
        rw [(List.getElem?_eq_some_iff.1 hv).2, h2] at hd
        cases rest with
        | nil => cases hd
        | cons x rest =>
          simp only [List.map_cons, List.cons.injEq] at hd
          have hm : m = 0 := by
            apply Classical.byContradiction
            intro h
            exact absurd (h3 (by omega)).1 (by simp)
          subst hm
          refine .inr ⟨l ++ [x], rest, 0, by simp [h1, hd.1], hd.2.symm, fun h => by omega, ?_, ?_, ?_⟩
          · simpa using h4
          · simpa using h6
          · simpa using h5
      | none =>
        rw [hv] at hn
        have hdone := hc.resolve_left (fun h => h hv)
        simp only [hdone, if_true, pure, Prog.ret.injEq, Except.ok.injEq, Prod.mk.injEq] at hn
        obtain ⟨rfl, rfl⟩ := hn
        have hr : rest = [] := by
          rw [List.drop_eq_nil_of_le (List.getElem?_eq_none_iff.1 hv)] at h2
          simpa using h2.symm
        refine .inr ⟨l, rest, m + 1, ?_, h2, fun _ => ⟨hr, hdone⟩, h4, h6, h5⟩
        rw [h1, List.replicate_succ', List.append_assoc]
        rfl
  | @scan s0 σ0 it out W a s fuel s' σ' b it' h hp hd h1 h2 h3 hw ih =>
    intro hl
    simp only [List.length_append, List.length_singleton] at hl
    rcases ih (by omega) with ⟨rfl, rfl⟩ | ⟨l, rest, m, g1, g2, g3, g4, g6, g5⟩
    · have hends := hw.ends (nextP_ends fuel _ hd hp)
      have hb : Begins env Calm a .walk s (σ0.next (.begun a .walk)) := ⟨s0, σ0, h.run, h1, h2, h3, rfl⟩
      rcases C37_scan_partial hb hd hp hw with h | h | ⟨b1, it1, e, i1, i2⟩
      · cases h
      · cases h
      · cases e
        refine .inr ?_
        rcases i2 with ⟨l, j1, j2, j3, j4, j5⟩ | ⟨j1, j2, j3, k, j4, j6, j5⟩
        · have hL := (j5 ⟨rfl, rfl⟩).more (W' := σ'.window a ++ W) fun M hM => List.mem_append_left _ hM
          have hpre : (Iter.new p).searchPrefix = p := rfl
          rw [hpre] at hL
          cases l with
          | nil =>
            simp only [List.isEmpty_nil, Bool.not_true] at j1
            subst j1
            obtain ⟨hdone, hpf⟩ : it'.done = true ∧ it'.prefetched.drop it'.pp = [] := by
              rcases hends with h | h
              · exact ⟨h.1, h.2 rfl⟩
              · exact absurd h.1 (by simp)
            exact ⟨[], [], 1, rfl, by rw [hpf]; rfl, fun _ => ⟨rfl, hdone⟩, .inl hdone, fun x hx => by simp at hx, .inl hL⟩
          | cons x l =>
            simp only [List.isEmpty_cons, Bool.not_false] at j1
            subst j1
            have j2 := j2 rfl
            simp only [List.map_cons, List.cons.injEq] at j2
            refine ⟨[x], l, 0, by simp [j2.1], j2.2, fun h => by omega, ?_, fun y hy => (j4 y hy).2.2, .inl hL⟩
            rcases hends with h | ⟨_, h, h'⟩
            · exact .inl h.1
            · right
              simp only at h h'
              have := congrArg List.length j2.2
              rw [List.length_drop, List.length_map, h] at this
              simp only [List.singleton_append, List.length_cons]
              omega
        · subst j1
          have hpf := j3 ⟨rfl, rfl⟩
          refine ⟨[(k, it'.value)], [], 0, rfl, by rw [hpf]; simp, fun h => by omega, .inl j2, fun y hy => by obtain rfl := List.mem_singleton.1 hy; exact j6, ?_⟩
          have hpre : (Iter.new p).searchPrefix = p := rfl
          rw [hpre] at j5
          have hmem : ∃ M ∈ σ'.window a ++ W, M k = some it'.value := by
            obtain ⟨M, g1, g2⟩ := j4
            exact ⟨M, List.mem_append_left _ g1, g2⟩
          by_cases hk : p <+: k
          · left
            refine ⟨List.pairwise_singleton _ _, fun x hx => ?_, fun x hx k' hp' hk' _ => ?_, fun _ k' hp' hk' => ?_⟩
            · obtain rfl := List.mem_singleton.1 hx
              exact ⟨hk, hmem⟩
            · simpa using j5 k' hp' fun M hM => hk' M (List.mem_append_left _ hM)
            · simpa using j5 k' hp' fun M hM => hk' M (List.mem_append_left _ hM)
          · refine .inr ⟨k, _, .inr rfl, hmem, hk, fun k' hp' => ?_⟩
            apply Classical.byContradiction
            intro hn
            have := j5 k' hp' fun M hM e => hn ⟨M, List.mem_append_left _ hM, e⟩
            exact hk (this ▸ hp')
    · exfalso
      have hr : rest = [] := by
        rw [List.drop_eq_nil_of_le (List.getElem?_eq_none_iff.1 hp)] at g2
        simpa using g2.symm
      subst hr
      rcases g4 with g4 | g4
      · rw [hd] at g4; cases g4
      · rw [g1] at hl
        simp [prefetchLength] at hl g4
        omega

/-- C37 for the first 257 calls of `Next`, where the races listed at `Calm` do not show: their results are values of keys with the prefix, in order, each
stored at some moment; up to the last one, no key that was stored all the time is missing, and none at all if `Next` has returned false.  The exception is a
prefix that no key has all the time, for which the value of some other key may be returned. -/
theorem C37_first_calls_partial {env : Env} {p : Key} {s : Sys} {σ : Spec} {it : Iter} {out : List (Option Word)} {W : List Map}
    (h : Iterates env Calm p s σ it out W) (hl : out.length ≤ 257) :
    ∃ l m, out = l.map (fun x => some x.2) ++ List.replicate m none ∧ (∀ x ∈ l, env.fetch x.2 = x.1) ∧ (Lists W p l (0 < m) ∨
      ∃ k v, (l = [] ∨ l = [(k, v)]) ∧ (∃ M ∈ W, M k = some v) ∧ ¬ p <+: k ∧ ∀ k', p <+: k' → ∃ M ∈ W, M k' = none) := by
  rcases h.fresh hl with ⟨rfl, _⟩ | ⟨l, rest, m, h1, _, h3, _, h6, h5⟩
  · exact ⟨[], 0, rfl, fun x hx => by simp at hx, .inl ⟨.nil, fun x hx => by simp at hx, fun x hx => by simp at hx, fun h => by omega⟩⟩
  · refine ⟨l, m, h1, fun x hx => h6 x (by simp [hx]), ?_⟩
    rcases h5.left (fin' := 0 < m) (fun hm => ⟨(h3 hm).2, (h3 hm).1⟩) with h | ⟨k, v, h6, h7⟩
    · exact .inl h
    · exact .inr ⟨k, v, h6.imp And.left id, h7⟩

theorem returned_vals {fetch : Word → Key} {l : List (Key × Word)} (hf : ∀ x ∈ l, fetch x.2 = x.1) (k : Key) (m : Nat) :
    returned fetch k (l.map (fun x => some x.2) ++ List.replicate m none) = (l.map (·.1)).count k := by
  have h0 : List.countP (fun o => Option.any (fun v => fetch v == k) o) (List.replicate m (none : Option Word)) = 0 :=
    List.countP_eq_zero.2 fun o ho => by rw [(List.mem_replicate.1 ho).2]; simp
  rw [returned, List.countP_append, h0, Nat.add_zero, List.countP_map, List.count_eq_countP, List.countP_map]
  exact List.countP_congr fun x hx => by simp [Function.comp, hf x hx]

/-- C37 for the first 257 calls, in the terms of `C37_statement`: what is missing is `Calm`, later scans, and that the calls end. -/
theorem C37_exactly_once_partial {env : Env} {p : Key} {s : Sys} {σ : Spec} {it : Iter} {out : List (Option Word)} {W : List Map}
    (h : Iterates env Calm p s σ it out W) (hl : out.length ≤ 257) {k : Key} (hp : p <+: k) (hk : ∀ M ∈ W, M k ≠ none) :
    returned env.fetch k out ≤ 1 ∧ (none ∈ out → returned env.fetch k out = 1) := by
  obtain ⟨l, m, rfl, hf, h1⟩ := C37_first_calls_partial h hl
  rw [returned_vals hf]
  rcases h1 with h1 | ⟨_, _, _, _, _, h2⟩
  · have hn := nodup_keys h1.sorted
    refine ⟨List.nodup_iff_count.1 hn k, fun hm => ?_⟩
    have hm' : 0 < m := by
      rw [List.mem_append] at hm
      rcases hm with hm | hm
      · obtain ⟨x, _, hx⟩ := List.mem_map.1 hm; cases hx
      · rw [List.mem_replicate] at hm; omega
    exact List.Nodup.count hn |>.trans (if_pos (h1.all hm' k hp hk))
  · obtain ⟨M, hM, e⟩ := h2 k hp
    exact absurd e (hk M hM)

/-- "bob" is deleted while the first call of `Next` is running; five calls return the values of all four keys, and false. -/
example : ∃ s σ it W, Iterates demoEnv Calm [] s σ it [some 0, some 1, some 3, some 2, none] W ∧ σ.map [98, 111, 98] = none := by
  obtain ⟨s, σ, s', σ', p', h1, h0, h2, h3⟩ := demoWalk (p := (Iter.new []).nextP 20) (key := [98, 111, 98]) (i := 10) (j := 5)
    (check := fun _ σ' p' => decide (σ'.map [98, 111, 98] = none) &&
      resultB (fun c => c == (true, ⟨[], 0, [0, 1, 3, 2], 1, [], true⟩)) p') (by decide +kernel)
  simp only [Bool.and_eq_true, decide_eq_true_eq] at h3
  obtain ⟨c, rfl, h⟩ := resultB_sound h3.2
  obtain rfl := eq_of_beq h
  obtain ⟨s0, σ0, g1, g2, g3, g4, rfl⟩ := h1
  have k1 := (Iterates.new (p := []) g1).scan rfl rfl g2 g3 g4 h2
  have k2 := k1.cached (.inr rfl) rfl
  have k3 := k2.cached (.inr rfl) rfl
  have k4 := k3.cached (.inr rfl) rfl
  have k5 := k4.cached (.inr rfl) rfl
  exact ⟨_, _, _, _, k5, h3.1⟩

/-! ### C37 does not hold -/

theorem Iterates.mono {env : Env} {G G' : Sys → Act → Prop} {p : Key} (hG : ∀ s act, G s act → G' s act) {s : Sys} {σ : Spec} {it : Iter}
    {out : List (Option Word)} {W : List Map} (h : Iterates env G p s σ it out W) : Iterates env G' p s σ it out W := by
  have hw : ∀ {a : Nat} {s s' : Sys} {σ σ' : Spec} {q q' : Prog (Bool × Iter)}, Walks env G (During a) s σ q s' σ' q' → Walks env G' (During a) s σ q s' σ' q' := by
    intro a s s' σ σ' q q' h
    induction h with
    | refl => exact .refl
    | other _ h1 h2 h3 h4 ih => exact .other ih h1 (hG _ _ h2) h3 h4
    | root _ ih => exact .root ih
    | blocks _ ih => exact .blocks ih
    | load _ ih => exact .load ih
  induction h with
  | new h => exact .new (h.mono hG)
  | other _ h1 h2 h3 ih => exact .other ih h1 (hG _ _ h2) h3
  | cached _ h1 h2 ih => exact .cached ih h1 h2
  | scan _ h1 h2 h3 h4 h5 h6 ih => exact .scan ih h1 h2 h3 (hG _ _ h4) h5 (hw h6)

/-- A call of `Next` that scans, without other operations. -/
theorem Iterates.scan_alone {env : Env} {p : Key} {s : Sys} {σ : Spec} {it : Iter} {out : List (Option Word)} {W : List Map}
    (h : Iterates env Calm p s σ it out W) (hW : ∀ M ∈ W, M = σ.map) {a : Nat} (hid : s.proc a = .idle) (ha : a < s.st.nalloc) (hb : 0 < s.st.nblocks)
    (hp : it.prefetched[it.pp]? = none) (hd : it.done = false) {fuel : Nat} {b : Bool} {it' : Iter} (hn : it.next s.st fuel = .ok (b, it')) :
    ∃ s' σ' W', Iterates env Calm p s' σ' it' (out ++ [if b then some it'.value else none]) W' ∧ (∀ M ∈ W', M = σ.map) ∧ σ'.map = σ.map ∧
      s'.proc a = .idle ∧ s'.st.mem = s.st.mem ∧ s'.st.root = s.st.root ∧ s'.st.nblocks = s.st.nblocks ∧ s'.st.nalloc = s.st.nalloc ∧
      (b = true → ∃ k, σ.map k = some it'.value ∧ env.fetch it'.value = k) := by
  -- begin
  have h1 : exec env.fetch s (.begin a .walk) = some (.ok (s.set a s.st (.arm s.st.epoch .walk), .none)) := by simp only [exec, hid, if_pos ha]
  have i1 := h.other (act := .begin a .walk) trivial hb h1
  have hp1 : (s.set a s.st (.arm s.st.epoch .walk)).proc a = .arm s.st.epoch .walk := by simp [Sys.set, upd_same]
  -- arm
  have h2 : exec env.fetch (s.set a s.st (.arm s.st.epoch .walk)) (.arm a) = some (.ok ((s.set a s.st (.arm s.st.epoch .walk)).set a
      { s.st with resv := upd s.st.resv a s.st.epoch } .walk, .begun a .walk)) := by
    simp only [exec, hp1]; rfl
  generalize hs2 : (s.set a s.st (.arm s.st.epoch .walk)).set a { s.st with resv := upd s.st.resv a s.st.epoch } .walk = s2 at h2
  have hst2 : s2.st = { s.st with resv := upd s.st.resv a s.st.epoch } := by rw [← hs2]; rfl
  have hp2 : s2.proc a = .walk := by rw [← hs2]; simp [Sys.set, upd_same]
  have hbeg : Begins env Calm a .walk s2 (σ.next (.begun a .walk)) := ⟨_, σ, i1.run, trivial, trivial, h2, rfl⟩
  have hw := Walks.alone (env := env) (G := Calm) (K := During a) s2 (σ.next (.begun a .walk)) (it.nextP fuel)
  rw [Prog.run_congr (st := s.st) (by rw [hst2]) (by rw [hst2]) (by rw [hst2]; rfl), run_nextP, hn] at hw
  have i2 := i1.scan hp hd trivial trivial h2 hw
  have hwin : (σ.next (.begun a .walk)).window a = [σ.map] := by simp [Spec.next, upd_same]
  rw [hwin] at i2
  -- finish
  have h3 : exec env.fetch s2 (.finish a) = some (.ok (s2.set a (s2.st.endOp a) .idle, .none)) := by simp only [exec, hp2]
  have i3 := i2.other (act := .finish a) trivial trivial h3
  refine ⟨_, _, _, i3, ?_, rfl, by simp [Sys.set, upd_same], ?_, ?_, ?_, ?_, fun hb => ?_⟩
  · intro M hM
    simp only [List.cons_append, List.nil_append, List.mem_cons] at hM
    rcases hM with rfl | rfl | rfl | hM
    · rfl
    · rfl
    · rfl
    · exact hW M hM
  · show s2.st.mem = s.st.mem
    rw [hst2]
  · show s2.st.root = s.st.root
    rw [hst2]
  · show s2.st.nblocks = s.st.nblocks
    rw [hst2]; rfl
  · show s2.st.nalloc = s.st.nalloc
    rw [hst2]
  · subst hb
    rcases C37_scan_partial hbeg hd hp hw with h | h | ⟨b1, it1, e, _, j⟩
    · cases h
    · cases h
    · cases e
      rw [hwin] at j
      rcases j with ⟨l, j1, j2, _, j4, _⟩ | ⟨_, _, _, k, j4, j5, _⟩
      · cases l with
        | nil => cases j1
        | cons x l =>
          have j2 := j2 rfl
          simp only [List.map_cons, List.cons.injEq] at j2
          obtain ⟨_, ⟨M, hM, hx⟩, hf⟩ := j4 x (.head _)
          obtain rfl := List.mem_singleton.1 hM
          exact ⟨x.1, by rw [j2.1]; exact hx, by rw [j2.1]; exact hf⟩
      · obtain ⟨M, hM, hx⟩ := j4
        obtain rfl := List.mem_singleton.1 hM
        exact ⟨k, hx, j5⟩

/-- Calls that return fetched values. -/
theorem Iterates.cacheds {env : Env} {G : Sys → Act → Prop} {p : Key} {s : Sys} {σ : Spec} {W : List Map} : ∀ (n : Nat) {it : Iter} {out : List (Option Word)},
    Iterates env G p s σ it out W → it.pp + n ≤ it.prefetched.length →
    ∃ w, Iterates env G p s σ { it with pp := it.pp + n, value := w } (out ++ ((it.prefetched.drop it.pp).take n).map some) W
  | 0, it, out, h, _ => ⟨it.value, by simpa using h⟩
  | n + 1, it, out, h, hle => by
    have hlt : it.pp < it.prefetched.length := by omega
    have h1 := h.cached (b := true) (it' := { it with value := it.prefetched[it.pp], pp := it.pp + 1 })
      (.inl (by rw [List.getElem?_eq_getElem hlt]; simp)) (by unfold Iter.nextP; rw [List.getElem?_eq_getElem hlt]; rfl)
    obtain ⟨w, h2⟩ := Iterates.cacheds n h1 (by show it.pp + 1 + n ≤ it.prefetched.length; omega)
    refine ⟨w, ?_⟩
    rw [List.drop_eq_getElem_cons hlt]
    have e : it.pp + 1 + n = it.pp + (n + 1) := by omega
    simpa only [e, List.take_succ_cons, List.map_cons, List.append_assoc, List.singleton_append, if_true] using h2

theorem Iter.run_cacheds {st : St} {fuel : Nat} : ∀ (n : Nat) {it : Iter}, it.pp + n ≤ it.prefetched.length →
    Iter.run st fuel n it = .ok (((it.prefetched.drop it.pp).take n).map some)
  | 0, _, _ => by rw [List.take_zero]; rfl
  | n + 1, it, hle => by
    have hlt : it.pp < it.prefetched.length := by omega
    have hn : it.next st fuel = .ok (true, { it with value := it.prefetched[it.pp], pp := it.pp + 1 }) := by
      unfold Iter.next
      rw [List.getElem?_eq_getElem hlt]
    unfold Iter.run
    rw [hn]
    simp only [bind, Except.bind]
    rw [Iter.run_cacheds n (by show it.pp + 1 + n ≤ it.prefetched.length; omega), List.drop_eq_getElem_cons hlt]
    simp only [pure, Except.pure, List.take_succ_cons, List.map_cons, if_true]

/-- C37 does not hold, even without other operations: with "a" and all keys "b?", 257 of them, the first 257 calls of `Next` return the values, and the 258th
returns one of them again (or a call panics). -/
theorem C37_does_not_hold : ¬ C37_statement := by
  intro hall
  obtain ⟨s, σ, _, h2, hidle, h4, _, hna⟩ := wide_state
  obtain ⟨t, seen, hI, hd⟩ := h2.serialInserts.insertOnly
  have hcalm := h2.serialInserts.insertOnly_calm
  obtain ⟨n, ch, n2, ch2, k, v, ht, hk, h97, h98, hlf⟩ := wide_shape hd hI.mem.core.wf (fun k v => by rw [hI.has_iff, h4])
  have hh := hI.mem.core.held
  have hroot : s.st.root = wordOf 0 t := by rw [hI.mem.core.root, ht]; rfl
  have hlen : t.leaves.length = 257 := by
    have hs : slotsOf false ch = [97, 98] := hk
    rw [ht, ← leavesAt_slotsOf, hs, leavesAt_cons, leavesAt_cons, h97, h98, ← leavesAt_slotsOf]
    have h3 := leavesAt_all hlf
    simp [T.leaves, h3]
  have hnb : 0 < s.st.nblocks := by
    have := hh.inb
    rw [ht] at this
    exact Nat.lt_of_lt_of_le (Nat.lt_of_le_of_lt (Nat.zero_le _) this.1.2.1) s.st.baNext_le
  have k0 : Iterates wideEnv Calm [] s σ (Iter.new []) [] [σ.map] := .new hcalm
  obtain ⟨-, N2, hN2⟩ := hall _ _ _ _ _ _ _ (k0.mono fun _ _ _ => trivial) hnb
  obtain ⟨N, hN⟩ := C14_values_in_order_partial hcalm hI.listing_nil
  have herr : ∀ {st : St} {it : Iter} {fuel n : Nat} {e : Panic} {r : List (Option Word)}, it.next st fuel = .error e → Iter.run st fuel n it = .ok r → none ∉ r := by
    intro st it fuel n e r h1 h2
    cases n with
    | zero => cases h2; simp
    | succ n => unfold Iter.run at h2; rw [h1] at h2; cases h2
  generalize hfuel : N + N2 + 2 * t.nodes = fuel0
  rcases wide_first hh ht hk h97 h98 hlf hroot fuel0 with ⟨e, h6⟩ | ⟨it, x, h6, i1, i2, i3, i4, i5⟩
  · obtain ⟨m, r, g1, g2⟩ := hN2 (fuel0 + 2) (by omega)
    exact herr h6 g1 g2
  obtain ⟨s1, σ1, W1, k1, hW1, hσ1, hid1, hm1, hr1, hb1, hna1, -⟩ := k0.scan_alone (by simp) (hidle 0) (by omega) hnb rfl rfl h6
  obtain ⟨w, k2⟩ := k1.cacheds 256 (by rw [i4, i5]; omega)
  have hrun : Iter.run s.st (fuel0 + 2) 257 (Iter.new []) = .ok (some it.value :: ((it.prefetched.drop it.pp).take 256).map some) := by
    unfold Iter.run
    rw [h6]
    simp only [bind, Except.bind]
    rw [Iter.run_cacheds 256 (by rw [i4, i5]; omega)]
    rfl
  have hres := hN (fuel0 + 2) (by omega) 257 (by omega) _ hrun
  obtain ⟨-, N3, hN3⟩ := hall _ _ _ _ _ _ _ (k2.mono fun _ _ _ => trivial) (by rw [hb1]; exact hnb)
  obtain ⟨m, r, g1, g2⟩ := hN3 (N3 + 2 * t.nodes + 1) (by omega)
  cases hn : Iter.next s1.st (N3 + 2 * t.nodes + 1) { it with pp := it.pp + 256, value := w } with
  | error e => exact herr hn g1 g2
  | ok y =>
    obtain ⟨b, it2⟩ := y
    have hb : b = true := by
      have hn' := hn
      rw [← run_nextP, Prog.run_congr hm1 hr1 hb1, run_nextP] at hn'
      exact wide_restarts hh ht hk h97 h98 hlf hroot (by omega) (it := { it with pp := it.pp + 256, value := w }) i1 i2 i3 (by show it.prefetched.length ≤ it.pp + 256; omega) hn'
    subst hb
    obtain ⟨s3, σ3, W3, k3, hW3, _, _, _, _, hb3, _, hv⟩ := k2.scan_alone (by rw [hσ1]; exact hW1) hid1 (by omega) (by omega)
      (List.getElem?_eq_none (by show it.prefetched.length ≤ it.pp + 256; omega)) i2 hn
    obtain ⟨key, hv1, hv2⟩ := hv rfl
    rw [hσ1] at hv1 hW3
    have hc := ((hall _ _ _ _ _ _ _ (k3.mono fun _ _ _ => trivial) (by omega)).1 key List.nil_prefix
      (fun M hM => by rw [hW3 M hM, hv1]; simp)).1
    have hmem : some it2.value ∈ [] ++ [some it.value] ++ ((it.prefetched.drop it.pp).take 256).map some := by
      have : some it2.value ∈ nextResults t.leaves 257 := by
        have hl := (hI.listing_nil.2 key it2.value).2 ⟨hv1, List.nil_prefix⟩
        obtain ⟨i, hi, he⟩ := List.getElem_of_mem hl
        refine List.mem_map.2 ⟨i, List.mem_range.2 (by omega), ?_⟩
        rw [List.getElem?_map, List.getElem?_eq_getElem hi, he]
        rfl
      rw [← hres] at this
      simpa using this
    rw [returned, List.countP_append] at hc
    have hc1 : 0 < List.countP (fun o => Option.any (fun v => wideEnv.fetch v == key) o) ([] ++ [some it.value] ++ ((it.prefetched.drop it.pp).take 256).map some) :=
      List.countP_pos_iff.2 ⟨_, hmem, by simp [hv2]⟩
    simp only [if_true] at hc hc1
    have hc2 : List.countP (fun o => Option.any (fun v => wideEnv.fetch v == key) o) [some it2.value] = 1 := by simp [hv2]
    omega

end Radix
