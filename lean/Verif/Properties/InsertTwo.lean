import Verif.Properties.WalkTwo
import Verif.Properties.Coarse
/-!
# C16, C17, C33 and C36 with two inserts at a time, access by access

The executions of C62 in which no delete is finalized.
-/
set_option autoImplicit false
namespace Radix

/-- `TwoUpdates`, and no delete is finalized. -/
def TwoInserts (s : Sys) (act : Act) : Prop := TwoUpdates s act ∧ ¬ s.DelPub act

/-- The same for the system in which every access is a step. -/
def FTwoInserts (f : FSys) (act : FAct) : Prop := FTwoUpdates f act ∧ ∀ a cur cm, act = .commit a → f.sys.proc a ≠ .delB cur cm

/-- The same for the system in which every load of a word that is copied is a step. -/
def TTwoInserts (τ : TSys) (act : TAct) : Prop := TTwoUpdates τ act ∧ ∀ a cur cm, act = .act (.commit a) → τ.f.sys.proc a ≠ .delB cur cm

instance : FineG TwoInserts where
  run := fun _ => ⟨trivial, fun h => by rcases h with ⟨_, _, _, h, _⟩ | ⟨_, _, _, h, _⟩ <;> cases h⟩
  slip := ⟨trivial, fun h => by rcases h with ⟨_, _, _, h, _⟩ | ⟨_, _, _, h, _⟩ <;> cases h⟩

section
variable {env : Env} {f : FSys} {s : Sys} {σ : Spec} {τ : TSys}

theorem Run.twoInserts (h : Run env TwoInserts s σ) : Run env InsertOnly s σ := by
  induction h with
  | init n => exact .init n
  | reload _ hs ih => exact .reload ih hs
  | step h0 h1 h2 h3 ih =>
    obtain ⟨_, t, seen, hI, hM⟩ := (h0.mono (G' := TwoUpdates) fun _ _ h => h.1).twoUpdates
    exact .step ih h1 ⟨hM.calm hI h2.1, h2.2⟩ h3

theorem FRun.inserts (h : FRun env FTwoInserts f σ) : ∃ s t seen, FRel env TwoInserts f s σ t seen :=
  h.relOf fun {f s σ t seen act} hF hG => by
    have hT : FRel env TwoUpdates f s σ t seen := hF.map (hF.run.mono fun _ _ h => h.1)
    refine ⟨.inl (hT.twoCalm hG.1), fun _ => ⟨hT.two hG.1, fun hd => ?_⟩⟩
    rcases hd with ⟨a, v, cur, h1, _⟩ | ⟨a, cur, cm, h1, h2⟩
    · cases act <;> cases h1
    · cases act <;> cases h1
      exact hG.2 a cur cm rfl (by rw [hF.proc]; exact h2)

theorem TRun.inserts (h : TRun env TTwoInserts τ σ) : FRun env FTwoInserts τ.f σ := by
  induction h with
  | init n => exact .init n
  | reload _ hs ih => exact .reload ih hs
  | step h0 hall hc he ih =>
    rename_i act _ ev
    obtain ⟨h1, hl⟩ := (h0.mono (G' := TTwoUpdates) fun _ _ h => h.1).two
    cases act with
    | act act =>
      obtain ⟨s, t, seen, hF⟩ := h1.two
      have h2 := (TSys.step_rel hF.weaken hl hall (fun {b x w} hx a cur cm _ hp _ _ _ => hF.twoApart hp (hl b x w hx).1) he).1
      exact .step ih hall ⟨hc.1, fun a cur cm e => hc.2 a cur cm (by rw [e])⟩ h2
    | load a x =>
      obtain ⟨h1, rfl, h3⟩ := TSys.load_loaded hl he
      rw [h1]
      exact ih

/-- The state reached is, but for the locks, one of an execution without finalized deletes. -/
theorem TRun.insertStep (h : TRun env TTwoInserts τ σ) : ∃ s l r, Run env InsertOnly s σ ∧ τ.f.sys.st = { s.st with locks := l, rootLock := r } := by
  obtain ⟨s, t, seen, hF⟩ := h.inserts.inserts
  exact ⟨s, _, _, hF.run.twoInserts, hF.st⟩

/-- C16, for executions without finalized deletes and a prefix that some key has. -/
theorem C16_min_key_two_partial (h : TRun env TTwoInserts τ σ) (hb : 0 < τ.f.sys.st.nblocks) {p : Key} {l : List (Key × Word)}
    (hl : Listing σ.map p l) (hne : l ≠ []) : ∃ N, ∀ fuel ≥ N, minKey τ.f.sys.st fuel p = .ok (l.head?.map (·.2)) := by
  obtain ⟨s, lk, r, hr, e⟩ := h.insertStep
  rw [e] at hb ⊢
  simp only [minKey_relock]
  exact C16_min_key_partial hr hb hl hne

/-- C17, for executions without finalized deletes and a prefix that some key has. -/
theorem C17_max_key_two_partial (h : TRun env TTwoInserts τ σ) (hb : 0 < τ.f.sys.st.nblocks) {p : Key} {l : List (Key × Word)}
    (hl : Listing σ.map p l) (hne : l ≠ []) : ∃ N, ∀ fuel ≥ N, maxKey τ.f.sys.st fuel p = .ok (l.getLast?.map (·.2)) := by
  obtain ⟨s, lk, r, hr, e⟩ := h.insertStep
  rw [e] at hb ⊢
  simp only [maxKey_relock]
  exact C17_max_key_partial hr hb hl hne

/-- C33: two executions with single accesses that have stored the same keys without deletes lead to trees of the same shape. -/
theorem C33_structure_two {env' : Env} {τ' : TSys} {σ' : Spec} (h : TRun env TTwoInserts τ σ) (h' : TRun env' TTwoInserts τ' σ')
    (hb : 0 < τ.f.sys.st.nblocks) (hb' : 0 < τ'.f.sys.st.nblocks) (hk : ∀ k, (∃ v, σ.map k = some v) ↔ ∃ v, σ'.map k = some v) (p : Key) :
    ∃ N, ∀ fuel ≥ N, ∃ c c', count τ.f.sys.st fuel p = .ok c ∧ count τ'.f.sys.st fuel p = .ok c' ∧ c.results = c'.results := by
  obtain ⟨s, lk, r, hr, e⟩ := h.insertStep
  obtain ⟨s', lk', r', hr', e'⟩ := h'.insertStep
  rw [e] at hb ⊢
  rw [e'] at hb' ⊢
  simp only [count_relock]
  exact C33_structure_is_order_independent hr hr' hb hb' hk p

/-- C36, for executions without finalized deletes: fewer nodes than keys. -/
theorem C36_fewer_nodes_than_keys_two_partial (h : TRun env TTwoInserts τ σ) (hne : ∃ k v, σ.map k = some v) :
    ∃ N, ∀ fuel ≥ N, ∃ c, count τ.f.sys.st fuel [] = .ok c ∧ c.nodes < c.leaves := by
  obtain ⟨s, lk, r, hr, e⟩ := h.insertStep
  rw [e]
  simp only [count_relock]
  exact C36_fewer_nodes_than_keys_partial hr hne
end

/-! ## An execution -/

def tinsertsB (τ : TSys) : TAct → Bool
  | .act (.commit a) => match τ.f.sys.proc a with | .delB _ _ => false | _ => true
  | _ => true

def ttraceI (l : List Key) (τ : TSys) (σ : Spec) : List TAct → Option (TSys × Spec)
  | [] => some (τ, σ)
  | act :: acts =>
    if act.allowedB l τ && tupdatesB τ act && tinsertsB τ act then
      match texec (fun v => l.getD (v.toNat % l.length) []) τ act with
      | some (.ok (τ', ev)) => ttraceI l τ' (σ.next ev) acts
      | _ => none
    else none

theorem TRun.traceI {l h} : ∀ {acts τ σ τ' σ'}, TRun (Env.ofList l h) TTwoInserts τ σ → ttraceI l τ σ acts = some (τ', σ') →
    TRun (Env.ofList l h) TTwoInserts τ' σ'
  | [], τ, σ, τ', σ', hr, ht => by
    simp only [ttraceI, Option.some.injEq, Prod.mk.injEq] at ht
    obtain ⟨rfl, rfl⟩ := ht
    exact hr
  | act :: acts, τ, σ, τ', σ', hr, ht => by
    simp only [ttraceI] at ht
    split at ht
    · rename_i hb
      simp only [Bool.and_eq_true] at hb
      split at ht
      · rename_i τ1 ev he
        refine TRun.traceI (.step hr ?_ ⟨?_, ?_⟩ he) ht
        · cases act with
          | load a x => trivial
          | act x => exact allowedB_sound hb.1.1
        · cases act with
          | load a x => trivial
          | act x => exact twoUpdates_sound _ _ _ (hr.mono (G' := TTwoUpdates) fun _ _ h => h.1).two.1 hb.1.2
        · intro a cur cm e hp
          have h2 := hb.2
          rw [e] at h2
          simp only [tinsertsB, hp] at h2
          cases h2
      · cases ht
    · cases ht

/-- The hypotheses are met in the middle of two inserts: allocator 0 has stored "aac", allocator 1 copies the root to insert "c". -/
example : ∃ τ σ, TRun (Env.ofList raceKeys raceKeys_good) TTwoInserts τ σ ∧ (τ.f.sys.proc 1).writer = true ∧ 0 < τ.f.sys.st.nblocks ∧
    σ.map [97, 97, 99] = some 6 ∧ ∃ l, Listing σ.map [] l ∧ l ≠ [] := by
  have h : (match ttraceI raceKeys (TSys.new 2) .init (tornActs 11 12) with
    | some (τ, σ) => decide ((τ.f.sys.proc 1).writer = true) && decide (0 < τ.f.sys.st.nblocks) && decide (σ.map [97, 97, 99] = some 6)
    | none => false) = true := by decide +kernel
  split at h
  · rename_i τ σ ht
    have hr := TRun.traceI (h := raceKeys_good) (.init 2) ht
    simp only [Bool.and_eq_true, decide_eq_true_eq] at h
    obtain ⟨s, t, seen, hF⟩ := hr.inserts.inserts
    have hl := hF.inv.listing_nil
    refine ⟨τ, σ, hr, h.1.1, h.1.2, h.2, t.leaves, hl, fun h0 => ?_⟩
    have := (hl.2 _ _).2 ⟨h.2, List.nil_prefix⟩
    rw [h0] at this
    cases this
  · cases h

end Radix
