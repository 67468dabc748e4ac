import Verif.Properties.Contract
/-!
# What the race of C09 does to C04, C05, C06, C13, C19 and C34

These properties are proved for calm executions (`Properties/Map.lean`, `Properties/Contract.lean`).  In full, over all executions that respect
the contract, they fail: after the three concurrent inserts of `raceActs` the key "aac" has been stored, by a `Finalize` that returned
true, and is not in the tree.
-/
set_option autoImplicit false
namespace Radix

/-- All executions respecting the contract; only lookups wait for the first memory block (C35). -/
def Unrestricted (s : Sys) (act : Act) : Prop := ∀ a key, act = .begin a (.lookup key) → 0 < s.st.nblocks

def unrestrictedB (s : Sys) : Act → Bool
  | .begin _ (.lookup _) => decide (0 < s.st.nblocks)
  | _ => true

theorem unrestricted_sound {env : Env} (s : Sys) (σ : Spec) (act : Act) (_ : Run env Unrestricted s σ) (hb : unrestrictedB s act = true) :
    Unrestricted s act := by
  rintro a key rfl
  exact of_decide_eq_true hb

abbrev raceEnv : Env := Env.ofList raceKeys raceKeys_good

/-- C04 in full: also with other operations outstanding. -/
def C04_statement : Prop :=
  ∀ (env : Env) (s : Sys) (σ : Spec), Run env Unrestricted s σ → ∀ (a : Nat) (key : Key) (found : Bool) (op : UpdOp),
    σ.call a = .update key → s.proc a = .upd (.held found op) →
    (found = false → σ.map key = none) ∧
    (found = true → (∃ M ∈ σ.window a, ∃ k', M k' = some op.value ∧ env.fetch op.value = k') ∧ ∀ v, σ.map key = some v → op.value = v)

/-- C04 does not hold in full: after the race, `PrepareUpdate("aac")` reports that "aac" is not stored. -/
theorem C04_does_not_hold : ¬ C04_statement := by
  intro hall
  obtain ⟨s, σ, h1, h2⟩ := Run.ofCheck (h := raceKeys_good) (G := Unrestricted) unrestricted_sound (n := 4)
    (acts := raceActs ++ [.begin 0 (.update [97, 97, 99]), .arm 0] ++ List.replicate 14 (.run 0))
    (check := fun s σ => decide (σ.map [97, 97, 99] = some 6) && decide (σ.call 0 = .update [97, 97, 99]) &&
      match s.proc 0 with | .upd (.held false _) => true | _ => false) (by decide +kernel)
  simp only [Bool.and_eq_true, decide_eq_true_eq] at h2
  obtain ⟨⟨h3, h4⟩, h5⟩ := h2
  split at h5
  · rename_i op hp
    have := (hall _ s σ h1 0 _ false op h4 hp).1 rfl
    rw [h3] at this
    cases this
  · cases h5

/-- C05 in full. -/
def C05_statement : Prop :=
  ∀ (env : Env) (s : Sys) (σ : Spec), Run env Unrestricted s σ → ∀ (a : Nat) (key : Key) (found : Bool) (op : UpdOp) (value : Word) (b : Bool) (st' : St),
    σ.call a = .update key → s.proc a = .upd (.held found op) → env.fetch (trunc55 value) = key →
    finalizeU s.st a op (env.fetch op.value) (decide (env.fetch op.value = key)) value = .ok (b, st') →
    ∀ k, k ≠ [] → content env.fetch st' k = if b = true ∧ k = key then some (trunc55 value) else content env.fetch s.st k

/-- C05 does not hold in full: `Finalize` of the update of "aac" returns true, and "aac" is not stored. -/
theorem C05_does_not_hold : ¬ C05_statement := by
  intro hall
  obtain ⟨s, σ, h1, h2⟩ := Run.ofCheck (h := raceKeys_good) (G := Unrestricted) unrestricted_sound (n := 4)
    (acts := raceActs.take (raceActs.length - 3))
    (check := fun s σ => decide (σ.call 2 = .update [97, 97, 99]) &&
      match s.proc 2 with
      | .upd (.held _ op) =>
        match finalizeU s.st 2 op (raceEnv.fetch op.value) (decide (raceEnv.fetch op.value = [97, 97, 99])) 6 with
        | .ok (true, st') => decide (content raceEnv.fetch st' [97, 97, 99] = none)
        | _ => false
      | _ => false) (by decide +kernel)
  simp only [Bool.and_eq_true, decide_eq_true_eq] at h2
  obtain ⟨h3, h4⟩ := h2
  split at h4
  · rename_i f op hp
    split at h4
    · rename_i st' hf
      have := hall _ s σ h1 2 _ f op 6 true st' h3 hp (by decide +kernel) hf [97, 97, 99] (by decide)
      rw [of_decide_eq_true h4] at this
      simp at this
    · cases h4
  · cases h4

/-- C06 in full, its part about keys reported as missing: the key was not stored at some moment since the call. -/
def C06_statement : Prop :=
  ∀ (env : Env) (s : Sys) (σ : Spec), Run env Unrestricted s σ → ∀ (a : Nat) (key k : Key), σ.call a = .delete key →
    s.proc a = .del (.miss k) → ∃ M ∈ σ.window a, M key = none

/-- C06 does not hold in full: after the race, with nothing else going on, `PrepareDelete("aac")` finds nothing. -/
theorem C06_does_not_hold : ¬ C06_statement := by
  intro hall
  obtain ⟨s, σ, h1, h2⟩ := Run.ofCheck (h := raceKeys_good) (G := Unrestricted) unrestricted_sound (n := 4)
    (acts := raceActs ++ [.begin 0 (.delete [97, 97, 99]), .arm 0] ++ List.replicate 13 (.run 0))
    (check := fun s σ => (σ.window 0).all (fun M => decide (M [97, 97, 99] = some 6)) && decide (σ.call 0 = .delete [97, 97, 99]) &&
      match s.proc 0 with | .del (.miss _) => true | _ => false) (by decide +kernel)
  simp only [Bool.and_eq_true, decide_eq_true_eq] at h2
  obtain ⟨⟨h3, h4⟩, h5⟩ := h2
  split at h5
  · rename_i k hp
    obtain ⟨M, hM, h6⟩ := hall _ s σ h1 0 _ k h4 hp
    rw [of_decide_eq_true (List.all_eq_true.1 h3 M hM)] at h6
    cases h6
  · cases h5

/-- C13 in full. -/
def C13_statement : Prop :=
  ∀ (env : Env) (s : Sys) (σ : Spec), Run env Unrestricted s σ → ∀ (a : Nat) (key k : Key) (res : Option Word), σ.call a = .lookup key →
    s.proc a = .rd (.done k res) → LookupCorrect env σ a key res

/-- C13 does not hold in full: after the race, with nothing else going on, a lookup of "aac" finds nothing. -/
theorem C13_does_not_hold : ¬ C13_statement := by
  intro hall
  obtain ⟨s, σ, h1, h2⟩ := Run.ofCheck (h := raceKeys_good) (G := Unrestricted) unrestricted_sound (n := 4)
    (acts := raceActs ++ [.begin 0 (.lookup [97, 97, 99]), .arm 0] ++ List.replicate 8 (.run 0))
    (check := fun s σ => (σ.window 0).all (fun M => decide (M [97, 97, 99] = some 6)) && decide (σ.call 0 = .lookup [97, 97, 99]) &&
      match s.proc 0 with | .rd (.done _ none) => true | _ => false) (by decide +kernel)
  simp only [Bool.and_eq_true, decide_eq_true_eq] at h2
  obtain ⟨⟨h3, h4⟩, h5⟩ := h2
  split at h5
  · rename_i k hp
    obtain ⟨M, hM, h6⟩ := hall _ s σ h1 0 _ k none h4 hp
    rw [of_decide_eq_true (List.all_eq_true.1 h3 M hM)] at h6
    cases h6
  · cases h5

theorem exec_built {env : Env} {s s' : Sys} {act : Act} {ev : Ev} (ha : env.Allowed s act)
    (h : exec env.fetch s act = some (.ok (s', ev))) (ih : ∀ b op value cm, s.proc b = .updB op value cm → env.fetch (trunc55 value) = op.key) :
    ∀ b op value cm, s'.proc b = .updB op value cm → env.fetch (trunc55 value) = op.key := by
  have hset : ∀ (a : Nat) (st : St) (p : Proc), (∀ op value cm, p = .updB op value cm → env.fetch (trunc55 value) = op.key) →
      ∀ b op value cm, (s.set a st p).proc b = .updB op value cm → env.fetch (trunc55 value) = op.key := by
    intro a st p hp b op value cm hb
    simp only [Sys.set, upd] at hb
    split at hb
    · exact hp _ _ _ hb
    · exact ih _ _ _ _ hb
  cases act with
  | build a value =>
    simp only [exec] at h
    split at h
    · rename_i f op hp
      simp only [Env.Allowed, hp] at ha
      injection h with h
      obtain ⟨⟨cm, st'⟩, hs, h⟩ := bind_ok h
      cases h
      exact hset _ _ _ (by rintro _ _ _ ⟨⟩; exact ha)
    · split at h
      · cases h
      · injection h with h
        obtain ⟨⟨cm, st'⟩, hs, h⟩ := bind_ok h
        cases h
        exact hset _ _ _ (by intro _ _ _ e; cases e)
    · cases h
  | arm a =>
    simp only [exec] at h
    split at h
    · rename_i e c hp
      cases h
      exact hset _ _ _ (by intro _ _ _ e; cases c <;> cases e)
    · cases h
  | block =>
    simp only [exec] at h
    injection h with h
    obtain ⟨st', hs, h⟩ := bind_ok h
    cases h
    exact ih
  | slip a =>
    obtain ⟨_, _, ⟨ph, ph', hp, hs, rfl⟩ | ⟨ph, ph', hp, hs, rfl⟩⟩ := exec_slip_ok h <;>
      exact hset _ _ _ (by intro _ _ _ e; cases e)
  | unlock a =>
    obtain ⟨_, ⟨b, tl, u, st', hp, hs, rfl⟩ | ⟨b, tl, u, st', hp, hs, rfl⟩⟩ := exec_unlock_ok h <;>
      exact hset _ _ _ (by intro _ _ _ e; cases e)
  | _ =>
    simp only [exec] at h
    repeat' split at h
    all_goals first
      | (cases h; done)
      | (cases h; exact hset _ _ _ (by intro _ _ _ e; cases e))
      | (injection h with h
         obtain ⟨x, hs, h⟩ := bind_ok h
         cases h; exact hset _ _ _ (by intro _ _ _ e; cases e))

theorem exec_put {fetch : Word → Key} {env : Env} {s s' : Sys} {act : Act} {k : Key} {v : Word} (hf : env.fetch = fetch)
    (ha : env.Allowed s act) (hb : ∀ b op value cm, s.proc b = .updB op value cm → env.fetch (trunc55 value) = op.key)
    (h : exec fetch s act = some (.ok (s', .put k v))) : env.fetch v = k := by
  subst hf
  cases act with
  | publish a value =>
    simp only [exec] at h
    split at h
    · rename_i f op hp
      simp only [Env.Allowed, hp] at ha
      injection h with h
      obtain ⟨⟨b, tl, st'⟩, hs, h⟩ := bind_ok h
      cases b
      · cases h
      · cases h; exact ha
    · injection h with h
      obtain ⟨⟨b, tl, st'⟩, hs, h⟩ := bind_ok h
      cases b <;> cases h
    · cases h
  | build a value =>
    simp only [exec] at h
    repeat' split at h
    all_goals first
      | cases h; done
      | (injection h with h
         obtain ⟨x, hs, h⟩ := bind_ok h
         cases h)
  | commit a =>
    simp only [exec] at h
    split at h
    · rename_i op value cm hp
      have := hb _ _ _ _ hp
      cases hc : (s.st.commit cm).1 <;> rw [hc] at h <;> cases h
      exact this
    · rename_i cur cm hp
      cases hc : (s.st.commit cm).1 <;> rw [hc] at h <;> cases h
    · cases h
  | run a =>
    simp only [exec] at h
    split at h
    all_goals first
      | cases h; done
      | (injection h with h
         obtain ⟨x, hs, h⟩ := bind_ok h
         cases h)
  | block =>
    simp only [exec] at h
    injection h with h
    obtain ⟨x, hs, h⟩ := bind_ok h
    cases h
  | tail a =>
    simp only [exec] at h
    split at h
    all_goals first
      | cases h; done
      | (injection h with h
         obtain ⟨x, hs, h⟩ := bind_ok h
         cases h)
  | abort a =>
    simp only [exec] at h
    split at h
    all_goals first
      | cases h; done
      | (injection h with h
         obtain ⟨x, hs, h⟩ := bind_ok h
         cases h)
  | slip a => cases (exec_slip_ok h).1
  | unlock a => cases (exec_unlock_ok h).1
  | quit a => cases (exec_quit_ok h).1
  | begin a c =>
    simp only [exec] at h
    split at h
    · split at h <;> cases h
    · cases h
  | arm a =>
    simp only [exec] at h
    split at h <;> cases h
  | finish a =>
    simp only [exec] at h
    split at h <;> cases h
  | flush a =>
    simp only [exec] at h
    split at h
    · split at h <;> cases h
    · cases h

/-- A stored value refers to an object with the stored key. -/
theorem Run.fetch_of_map {env : Env} {G : Sys → Act → Prop} {s : Sys} {σ : Spec} (h : Run env G s σ) : ∀ k v, σ.map k = some v → env.fetch v = k := by
  have hB : ∀ {s σ}, Run env G s σ → ∀ b op value cm, s.proc b = .updB op value cm → env.fetch (trunc55 value) = op.key := by
    intro s σ h
    induction h with
    | init n => intro _ _ _ _ h; cases h
    | reload _ _ _ => intro _ _ _ _ h; cases h
    | step hr ha hg he ih => exact exec_built ha he ih
  induction h with
  | init n => intro k v h; cases h
  | reload _ _ ih => exact ih
  | @step s σ act s' ev hr ha hg he ih =>
    intro k v hk
    cases ev with
    | none => exact ih k v hk
    | begun b c => exact ih k v hk
    | put key w =>
      simp only [Spec.next, Spec.change, upd] at hk
      split at hk
      · rename_i e
        cases hk
        rw [e]
        exact exec_put rfl ha (hB hr) he
      · exact ih k v hk
    | del key =>
      simp only [Spec.next, Spec.change, upd] at hk
      split at hk
      · cases hk
      · exact ih k v hk

/-- C19 in full. -/
def C19_statement : Prop :=
  ∀ (env : Env) (s : Sys) (σ : Spec), Run env Unrestricted s σ → (∀ a, s.proc a = .idle) →
    ∃ l : List Key, l.Nodup ∧ (∀ k, k ∈ l ↔ σ.map k ≠ none) ∧ s.st.len = l.length

/-- C19 does not hold in full: after the race, storing the lost key once more counts it twice. -/
theorem C19_does_not_hold : ¬ C19_statement := by
  intro hall
  obtain ⟨s, σ, h1, h2⟩ := Run.ofCheck (h := raceKeys_good) (G := fun s act => Unrestricted s act ∧ TidyAbort s act)
    (g := fun s act => unrestrictedB s act && match act with | .abort _ | .quit _ => false | _ => true)
    (by
      intro s σ act h hb
      simp only [Bool.and_eq_true] at hb
      refine ⟨?_, ?_⟩
      · rintro a key rfl
        exact of_decide_eq_true hb.1
      · constructor <;> (rintro a cur rfl; simp at hb))
    (n := 4) (acts := raceActs ++ putActs 0 [97, 97, 99] 6 14)
    (check := fun s _ => decide (s.st.len = 8) && (List.range s.st.nalloc).all (fun b => (s.proc b).isIdle)) (by decide +kernel)
  simp only [Bool.and_eq_true, decide_eq_true_eq] at h2
  have hT : Tidy s := h1.tidyOf fun _ _ _ _ h => h.2
  have h3 : Run raceEnv Unrestricted s σ := h1.mono fun _ _ h => h.1
  obtain ⟨l, hl, hm, he⟩ := hall raceEnv s σ h3 (all_idle hT.off h2.2)
  have hsub : l ⊆ raceKeys := by
    intro k hk
    have := (hm k).1 hk
    cases hv : σ.map k with
    | none => exact absurd hv this
    | some v =>
      rw [← h3.fetch_of_map k v hv]
      show raceKeys.getD (v.toNat % raceKeys.length) [] ∈ raceKeys
      have hlt : v.toNat % raceKeys.length < raceKeys.length := Nat.mod_lt _ (by decide)
      rw [List.getD_eq_getElem?_getD, List.getElem?_eq_getElem hlt]
      exact List.getElem_mem hlt
  have := hl.length_le_of_subset hsub
  rw [h2.1] at he
  have e : raceKeys.length = 7 := by decide
  omega

/-- C34 in full: a key comparable by prefix with a stored key is never stored. -/
def C34_statement : Prop :=
  ∀ (env : Env) (s : Sys) (σ : Spec), Run env Unrestricted s σ → (∀ b, s.proc b = .idle) → ∀ (a : Nat) (k0 key : Key), a < s.st.nalloc →
    σ.map k0 ≠ none → (key <+: k0 ∨ k0 <+: key) → key ≠ k0 → ∀ (n : Nat) (s' s'' : Sys) (value v : Word),
    execs env.fetch s (prepareActs a (.update key) n) = some s' → exec env.fetch s' (.publish a value) ≠ some (.ok (s'', .put key v))

/-- C34 does not hold in full: after the race, "aacd" is stored although "aac" was stored before (and is lost). -/
theorem C34_does_not_hold : ¬ C34_statement := by
  intro hall
  obtain ⟨s, σ, h1, h2⟩ := Run.ofCheck (h := raceKeys_good) (G := fun s act => Unrestricted s act ∧ TidyAbort s act)
    (g := fun s act => unrestrictedB s act && match act with | .abort _ | .quit _ => false | _ => true)
    (by
      intro s σ act h hb
      simp only [Bool.and_eq_true] at hb
      refine ⟨?_, ?_⟩
      · rintro a key rfl
        exact of_decide_eq_true hb.1
      · constructor <;> (rintro a cur rfl; simp at hb))
    (n := 4) (acts := raceActs)
    (check := fun s σ => decide (s.st.nalloc = 4) && (List.range s.st.nalloc).all (fun b => (s.proc b).isIdle) &&
      decide (σ.map [97, 97, 99] = some 6) &&
      match execs raceEnv.fetch s (prepareActs 0 (.update [97, 97, 99, 100]) 14) with
      | some s' => match exec raceEnv.fetch s' (.publish 0 7) with
        | some (.ok (_, .put k v)) => decide (k = [97, 97, 99, 100]) && decide (v = 7)
        | _ => false
      | none => false) (by decide +kernel)
  simp only [Bool.and_eq_true, decide_eq_true_eq] at h2
  obtain ⟨⟨⟨h3, h4⟩, h5⟩, h6⟩ := h2
  have hT : Tidy s := h1.tidyOf fun _ _ _ _ h => h.2
  split at h6
  · rename_i s' hs'
    split at h6
    · rename_i s'' k v hx
      simp only [Bool.and_eq_true, decide_eq_true_eq] at h6
      obtain ⟨rfl, rfl⟩ := h6
      exact hall raceEnv s σ (h1.mono fun _ _ h => h.1) (all_idle hT.off h4) 0 [97, 97, 99] [97, 97, 99, 100] (by omega)
        (by rw [h5]; simp) (.inr ⟨[100], rfl⟩) (by decide) 14 s' s'' 7 7 hs' hx
    · cases h6
  · cases h6

/-- C07 also applies after the race, when the tree has lost a key: here a second update of "aac" is prepared. -/
example : ∃ s σ, Run raceEnv TidyAbort s σ ∧ σ.map [97, 97, 99] = some 6 ∧ content raceEnv.fetch s.st [97, 97, 99] = none ∧
    ∃ f op, s.proc 0 = .upd (.held f op) := by
  obtain ⟨s, σ, h1, h2⟩ := Run.ofCheck (h := raceKeys_good) (G := TidyAbort) (g := fun _ act => match act with | .abort _ | .quit _ => false | _ => true)
    (by intro s σ act h hb; constructor <;> (rintro a cur rfl; cases hb))
    (n := 4) (acts := raceActs ++ [.begin 0 (.update [97, 97, 99]), .arm 0] ++ List.replicate 14 (.run 0))
    (check := fun s σ => decide (σ.map [97, 97, 99] = some 6) && decide (content raceEnv.fetch s.st [97, 97, 99] = none) &&
      match s.proc 0 with | .upd (.held _ _) => true | _ => false) (by decide +kernel)
  simp only [Bool.and_eq_true, decide_eq_true_eq] at h2
  obtain ⟨⟨h3, h4⟩, h5⟩ := h2
  split at h5
  · exact ⟨s, σ, h1, h3, h4, _, _, by assumption⟩
  · cases h5

end Radix
