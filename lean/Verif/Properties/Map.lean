import Verif.Sys.Facts
import Verif.Demo
/-!
# Properties C01, C02, C04, C05, C06, C09, C13: the tree is a map

`Run env G s σ`: an execution that respects the caller's contract and the restriction `G` has led to the state `s`, and `σ.map` is the
map obtained from the empty map by the updates and deletes whose `Finalize` returned true, in the order of their publishing steps
(`Verif/Spec.lean`).  `Serial`: operations do not overlap.  `OneWriter`: updates and deletes do not overlap with each other, lookups
run at any time.  `Calm`: any number of operations overlap, in any way, but the known races of the code do not show (`Verif/Calm.lean`).
-/
set_option autoImplicit false
namespace Radix

/-! ## C01, C02: Lookup -/

/-- C01: a lookup of a stored key returns its value. -/
theorem C01_lookup_finds_stored_keys {env : Env} {s : Sys} {σ : Spec} (h : Run env Serial s σ) (a : Nat) {key : Key} {v : Word}
    (hv : σ.map key = some v) : ∃ st', lookup s.st a key = .ok (some v, st') := by
  obtain ⟨t, seen, hI⟩ := h.calm.inv
  have hk : key ≠ [] := env.ne (hI.stored hv).1
  obtain ⟨r, h1, h2, h3⟩ := hI.search (st' := s.st.startOp a) rfl rfl rfl hk (by rw [hv]; intro h; cases h)
  refine ⟨(s.st.startOp a).endOp a, ?_⟩
  unfold lookup
  simp only [h1, bind, Except.bind, pure, Except.pure]
  cases r with
  | none => rw [h3 rfl] at hv; cases hv
  | some v' =>
    obtain ⟨k', g1, _, g3⟩ := h2 v' rfl
    rw [g3 (by rw [hv]; simp), hv] at g1
    cases g1
    rfl

/-- The hypotheses of C01 hold after inserting four keys, deleting one and changing the value of one. -/
example : ∃ s σ, Run demoEnv Serial s σ ∧ σ.map [97, 112, 114, 105, 108] = some 5 := by
  obtain ⟨s, σ, h1, h2⟩ := Run.ofCheck (h := demoKeys_good) (G := Serial) serial_sound (n := 2) (acts := demoActs)
    (check := fun _ σ => decide (σ.map [97, 112, 114, 105, 108] = some 5)) (by decide +kernel)
  exact ⟨s, σ, h1, of_decide_eq_true h2⟩

/-- C02: a lookup that finds something returns the value of a key stored now, and of the lookup key if that is stored; otherwise the
lookup key is not stored.  (The first block exists, see C35.) -/
theorem C02_lookup_returns_stored_values {env : Env} {s : Sys} {σ : Spec} (h : Run env Serial s σ) (hb : 0 < s.st.nblocks) (a : Nat)
    {key : Key} (hk : key ≠ []) :
    (∃ v k' st', lookup s.st a key = .ok (some v, st') ∧ σ.map k' = some v ∧ env.fetch v = k' ∧ (σ.map key ≠ none → k' = key)) ∨
    (∃ st', lookup s.st a key = .ok (none, st') ∧ σ.map key = none) := by
  obtain ⟨t, seen, hI⟩ := h.calm.inv
  obtain ⟨r, h1, h2, h3⟩ := hI.search (st' := s.st.startOp a) rfl rfl rfl hk fun _ => hb
  have h4 : lookup s.st a key = .ok (r, (s.st.startOp a).endOp a) := by
    unfold lookup
    simp only [h1, bind, Except.bind, pure, Except.pure]
  cases r with
  | none => exact .inr ⟨_, h4, h3 rfl⟩
  | some v =>
    obtain ⟨k', g⟩ := h2 v rfl
    exact .inl ⟨v, k', _, h4, g⟩

/-- C02: comparing the key of the candidate with the lookup key gives exactly the map. -/
theorem C02_verified_lookup_is_map {env : Env} {s : Sys} {σ : Spec} (h : Run env Serial s σ) {key : Key} (hk : key ≠ []) :
    content env.fetch s.st key = σ.map key := by
  obtain ⟨t, seen, hI⟩ := h.calm.inv
  exact hI.contents hk

/-- There are executions in which a lookup returns the value of another key: "bar" for "barber" and, "bob" being deleted, for "bob"
there is none. -/
example : ∃ s σ, Run demoEnv Serial s σ ∧ 0 < s.st.nblocks ∧ search s.st [98, 97, 114, 98, 101, 114] = .ok (some 3) ∧
    search s.st [98, 111, 98] = .ok (some 3) ∧ search s.st [99] = .ok none := by
  obtain ⟨s, σ, h1, h2⟩ := Run.ofCheck (h := demoKeys_good) (G := Serial) serial_sound (n := 2) (acts := demoActs)
    (check := fun s _ => decide (0 < s.st.nblocks) && decide (search s.st [98, 97, 114, 98, 101, 114] = .ok (some 3)) &&
      decide (search s.st [98, 111, 98] = .ok (some 3)) && decide (search s.st [99] = .ok none)) (by decide +kernel)
  simp only [Bool.and_eq_true, decide_eq_true_eq] at h2
  exact ⟨s, σ, h1, h2.1.1.1, h2.1.1.2, h2.1.2, h2.2⟩

/-! ## C04: PrepareUpdate -/

/-- C04: when `PrepareUpdate(key)` has returned `found` (and nothing else is going on): `found = false` only if the key is not stored;
otherwise `op.Value` is the value of a stored key, and of the key itself if it is stored. -/
theorem C04_prepare_update_classifies_partial {env : Env} {s : Sys} {σ : Spec} (h : Run env OneWriter s σ) {a : Nat} {key : Key} {found : Bool}
    {op : UpdOp} (hc : σ.call a = .update key) (hp : s.proc a = .upd (.held found op)) :
    (found = false → σ.map key = none) ∧
    (found = true → ∃ k', σ.map k' = some op.value ∧ env.fetch op.value = k' ∧ (σ.map key ≠ none → k' = key)) := by
  obtain ⟨t, seen, hI⟩ := h.oneWriter.1.inv
  have hkey : op.key = key := by
    have := h.call a (.update op.key) (by rw [hp]; rfl)
    rw [hc] at this
    injection this with this; exact this.symm
  have hact : (s.proc a).active = true := by rw [hp]; rfl
  have hw := h.window a (by rw [hp]; rfl) hact (by rw [hp]; rfl)
  constructor
  · rintro rfl
    rw [← hkey]
    exact hI.update_absent hp
  · rintro rfl
    have hP := hI.proc a
    rw [hp] at hP
    obtain ⟨M, hM, k', h1, h2⟩ := hI.cand hact (hP.2.2.1 rfl)
    rw [hw, List.mem_singleton] at hM
    subst hM
    refine ⟨k', h1, h2, fun h3 => ?_⟩
    obtain ⟨v, hv⟩ := Option.ne_none_iff_exists'.1 h3
    have := hI.update_own hp (hkey ▸ hv)
    rw [← h2, this]
    exact (hI.stored hv).2.1

/-- C04 with other operations outstanding: `found = false` only if the key is not stored now; otherwise `op.Value` is the value of a key
that was stored at some moment since the call, and of the key itself if that is stored now. -/
theorem C04_prepare_update_classifies_concurrent_partial {env : Env} {s : Sys} {σ : Spec} (h : Run env Calm s σ) {a : Nat} {key : Key}
    {found : Bool} {op : UpdOp} (hc : σ.call a = .update key) (hp : s.proc a = .upd (.held found op)) :
    (found = false → σ.map key = none) ∧
    (found = true → (∃ M ∈ σ.window a, ∃ k', M k' = some op.value ∧ env.fetch op.value = k') ∧
      ∀ v, σ.map key = some v → op.value = v) := by
  obtain ⟨t, seen, hI⟩ := h.inv
  have hkey : op.key = key := by
    have := h.call a (.update op.key) (by rw [hp]; rfl)
    rw [hc] at this
    injection this with this; exact this.symm
  have hact : (s.proc a).active = true := by rw [hp]; rfl
  constructor
  · rintro rfl
    rw [← hkey]
    exact hI.update_absent hp
  · rintro rfl
    have hP := hI.proc a
    rw [hp] at hP
    exact ⟨hI.cand hact (hP.2.2.1 rfl), fun v hv => hI.update_own hp (hkey ▸ hv)⟩

/-- "april" is prepared (found, with its value 1) after inserting "apple" and "april". -/
example : ∃ s σ, Run demoEnv OneWriter s σ ∧ σ.call 0 = .update [97, 112, 114, 105, 108] ∧
    ∃ op, s.proc 0 = .upd (.held true op) ∧ op.value = 1 := by
  obtain ⟨s, σ, h1, h2⟩ := Run.ofCheck (h := demoKeys_good) (G := OneWriter) oneWriter_sound (n := 2)
    (acts := demoActs.take 13 ++ [.begin 0 (.update [97, 112, 114, 105, 108]), .arm 0] ++ List.replicate 6 (.run 0))
    (check := fun s σ => decide (σ.call 0 = .update [97, 112, 114, 105, 108]) &&
      match s.proc 0 with | .upd (.held true op) => decide (op.value = 1) | _ => false) (by decide +kernel)
  simp only [Bool.and_eq_true, decide_eq_true_eq] at h2
  refine ⟨s, σ, h1, h2.1, ?_⟩
  have h3 := h2.2
  split at h3
  · exact ⟨_, by assumption, of_decide_eq_true h3⟩
  · cases h3

/-! ## C05: Update.Finalize -/

theorem runTail_step {env : Env} {s : Sys} {σ : Spec} (h : Run env Calm s σ) {a : Nat} {b : Bool} {tl : Tail} {st' : St}
    (hp : s.proc a = .upd (.tail b tl) ∨ s.proc a = .del (.tail b tl)) (ht : s.st.runTail a tl = .ok st') :
    Run env Calm (s.set a st' .idle) σ := by
  have he : exec env.fetch s (.tail a) = some (.ok (s.set a st' .idle, .none)) := by
    rcases hp with hp | hp <;> simp [exec, hp, ht, bind, Except.bind, pure, Except.pure]
  exact .step (act := .tail a) h trivial trivial he

/-- C05: `Finalize(value)` of a prepared update of `key`, if it returns true, stores `value` (truncated to 55 bits) for `key` and leaves
every other key as it was; if it returns false, nothing has changed.  What is stored is what `Lookup` reads. -/
theorem C05_finalize_stores_one_key_partial {env : Env} {s : Sys} {σ : Spec} (h : Run env Calm s σ) {a : Nat} {key : Key} {found : Bool} {op : UpdOp}
    (hc : σ.call a = .update key) (hp : s.proc a = .upd (.held found op)) {value : Word} (hv : env.fetch (trunc55 value) = key)
    {b : Bool} {st' : St}
    (hf : finalizeU s.st a op (env.fetch op.value) (decide (env.fetch op.value = key)) value = .ok (b, st')) :
    ∀ k, k ≠ [] → content env.fetch st' k = if b = true ∧ k = key then some (trunc55 value) else content env.fetch s.st k := by
  have hkey : op.key = key := by
    have := h.call a (.update op.key) (by rw [hp]; rfl)
    rw [hc] at this
    injection this with this; exact this.symm
  subst hkey
  unfold finalizeU at hf
  simp only [bind, Except.bind, pure, Except.pure] at hf
  split at hf
  · cases hf
  · rename_i r hpub
    obtain ⟨b1, tl, st1⟩ := r
    simp only at hf
    split at hf
    · cases hf
    · rename_i st2 ht
      cases hf
      have he : exec env.fetch s (.publish a value) =
          some (.ok (s.set a st1 (.upd (.tail b tl)), if b then .put op.key (trunc55 value) else .none)) := by
        simp [exec, hp, hpub, bind, Except.bind, pure, Except.pure]
      have h1 : Run env Calm _ _ := .step h (by simpa [Env.Allowed, hp] using hv) (by simp [Calm, hp]) he
      have h2 := runTail_step (b := b) h1 (a := a) (tl := tl) (st' := st') (.inl (by simp [Sys.set])) ht
      obtain ⟨t, seen, hI⟩ := h.inv
      obtain ⟨t2, seen2, hI2⟩ := h2.inv
      intro k hk
      rw [hI.contents hk]
      have := hI2.contents hk
      simp only [Sys.set] at this
      rw [this]
      cases b with
      | false => simp [Spec.next]
      | true => simp [Spec.next, Spec.change, upd]

/-- There are executions with a prepared update whose `Finalize` succeeds and changes the lookup. -/
example : ∃ s σ, Run demoEnv Calm s σ ∧ σ.call 0 = .update [97, 112, 114, 105, 108] ∧ demoEnv.fetch (trunc55 5) = [97, 112, 114, 105, 108] ∧
    ∃ op st', s.proc 0 = .upd (.held true op) ∧
      finalizeU s.st 0 op (demoEnv.fetch op.value) (decide (demoEnv.fetch op.value = [97, 112, 114, 105, 108])) 5 = .ok (true, st') ∧
      search s.st [97, 112, 114, 105, 108] = .ok (some 1) ∧ search st' [97, 112, 114, 105, 108] = .ok (some 5) := by
  obtain ⟨s, σ, h1, h2⟩ := Run.ofCheck (h := demoKeys_good) (G := Calm) calm_sound (n := 2)
    (acts := demoActs.take 13 ++ [.begin 0 (.update [97, 112, 114, 105, 108]), .arm 0] ++ List.replicate 6 (.run 0))
    (check := fun s σ => decide (σ.call 0 = .update [97, 112, 114, 105, 108]) &&
      match s.proc 0 with
      | .upd (.held true op) =>
        match finalizeU s.st 0 op (demoEnv.fetch op.value) (decide (demoEnv.fetch op.value = [97, 112, 114, 105, 108])) 5 with
        | .ok (true, st') => decide (search s.st [97, 112, 114, 105, 108] = .ok (some 1)) &&
            decide (search st' [97, 112, 114, 105, 108] = .ok (some 5))
        | _ => false
      | _ => false) (by decide +kernel)
  simp only [Bool.and_eq_true, decide_eq_true_eq] at h2
  refine ⟨s, σ, h1, h2.1, by decide +kernel, ?_⟩
  have h3 := h2.2
  split at h3
  · split at h3
    · simp only [Bool.and_eq_true, decide_eq_true_eq] at h3
      exact ⟨_, _, by assumption, by assumption, h3.1, h3.2⟩
    · cases h3
  · cases h3

/-! ## C06: deletes -/

/-- C06: when `PrepareDelete(key)` has reported that there is nothing (and no other update or delete is under way), `key` is not stored. -/
theorem C06_prepare_delete_not_found_partial {env : Env} {s : Sys} {σ : Spec} (h : Run env OneWriter s σ) {a : Nat} {key k : Key}
    (hc : σ.call a = .delete key) (hp : s.proc a = .del (.miss k)) : σ.map key = none := by
  obtain ⟨t, seen, hI⟩ := h.oneWriter.1.inv
  have hkey : k = key := by
    have := h.call a (.delete k) (by rw [hp]; rfl)
    rw [hc] at this
    injection this with this; exact this.symm
  subst hkey
  have hact : (s.proc a).active = true := by rw [hp]; rfl
  have hw := h.window a (by rw [hp]; rfl) hact (by rw [hp]; rfl)
  have hP := hI.proc a
  rw [hp] at hP
  obtain ⟨M, hM, h1⟩ := hI.absent hact hP
  rw [hw, List.mem_singleton] at hM
  rw [← hM]; exact h1

/-- C06: the candidate of a prepared delete is the value of a stored key, and of `key` if that is stored. -/
theorem C06_prepare_delete_candidate_partial {env : Env} {s : Sys} {σ : Spec} (h : Run env OneWriter s σ) {a : Nat} {key : Key} {cur : DelCur}
    (hc : σ.call a = .delete key) (hp : s.proc a = .del (.held cur)) :
    ∃ k', σ.map k' = some cur.op.value ∧ env.fetch cur.op.value = k' ∧ (σ.map key ≠ none → k' = key) := by
  obtain ⟨t, seen, hI⟩ := h.oneWriter.1.inv
  have hkey : cur.key = key := by
    have := h.call a (.delete cur.key) (by rw [hp]; rfl)
    rw [hc] at this
    injection this with this; exact this.symm
  subst hkey
  have hact : (s.proc a).active = true := by rw [hp]; rfl
  have hw := h.window a (by rw [hp]; rfl) hact (by rw [hp]; rfl)
  have hP := hI.proc a
  rw [hp] at hP
  obtain ⟨M, hM, k', h1, h2, h3⟩ := hI.candK hact hP.1
  rw [hw, List.mem_singleton] at hM
  subst hM
  refine ⟨k', h1, h2, fun h => h3 ?_⟩
  rw [hw]
  intro M hM
  rw [List.mem_singleton] at hM
  rw [hM]; exact h

/-- C06: `Finalize` of a prepared delete of `key` whose candidate is an object with this key, if it returns true, removes `key` and leaves
every other key as it was; if it returns false, nothing has changed. -/
theorem C06_finalize_removes_one_key_partial {env : Env} {s : Sys} {σ : Spec} (h : Run env OneWriter s σ) {a : Nat} {key : Key} {cur : DelCur}
    (hc : σ.call a = .delete key) (hp : s.proc a = .del (.held cur)) (hv : env.fetch cur.op.value = key)
    {b : Bool} {st' : St} (hf : finalizeD s.st a cur.op = .ok (b, st')) :
    ∀ k, k ≠ [] → content env.fetch st' k = if b = true ∧ k = key then none else content env.fetch s.st k := by
  have hkey : cur.key = key := by
    have := h.call a (.delete cur.key) (by rw [hp]; rfl)
    rw [hc] at this
    injection this with this; exact this.symm
  subst hkey
  obtain ⟨hC, hS⟩ := h.oneWriter
  obtain ⟨t, seen, hI⟩ := hC.inv
  unfold finalizeD at hf
  simp only [bind, Except.bind, pure, Except.pure] at hf
  split at hf
  · cases hf
  · rename_i r hpub
    obtain ⟨b1, tl, st1⟩ := r
    simp only at hf
    split at hf
    · cases hf
    · rename_i st2 ht
      cases hf
      have he : exec env.fetch s (.publish a 0) =
          some (.ok (s.set a st1 (.del (.tail b tl)), if b then .del cur.key else .none)) := by
        simp [exec, hp, hpub, bind, Except.bind, pure, Except.pure]
      have h1 : Run env Calm _ _ := .step hC (by simpa [Env.Allowed, hp] using hv) (SInv.calm (act := .publish a 0) hI hS trivial) he
      have h2 := runTail_step (b := b) h1 (a := a) (tl := tl) (st' := st') (.inr (by simp [Sys.set])) ht
      obtain ⟨t2, seen2, hI2⟩ := h2.inv
      intro k hk
      rw [hI.contents hk]
      have := hI2.contents hk
      simp only [Sys.set] at this
      rw [this]
      cases b with
      | false => simp [Spec.next]
      | true => simp [Spec.next, Spec.change, upd]

/-- C06 with any number of other operations under way: when `PrepareDelete(key)` has reported that there is nothing, `key` was not stored at
some moment since the call. -/
theorem C06_prepare_delete_not_found_concurrent_partial {env : Env} {s : Sys} {σ : Spec} (h : Run env Calm s σ) {a : Nat} {key k : Key}
    (hc : σ.call a = .delete key) (hp : s.proc a = .del (.miss k)) : ∃ M ∈ σ.window a, M key = none := by
  obtain ⟨t, seen, hI⟩ := h.inv
  have hkey : k = key := by
    have := h.call a (.delete k) (by rw [hp]; rfl)
    rw [hc] at this
    injection this with this; exact this.symm
  subst hkey
  have hP := hI.proc a
  rw [hp] at hP
  exact hI.absent (by rw [hp]; rfl) hP

/-- C06 with any number of other operations under way: the candidate of a prepared delete was stored at some moment since the call, and it is
the value of `key` if `key` was stored all the time. -/
theorem C06_prepare_delete_candidate_concurrent_partial {env : Env} {s : Sys} {σ : Spec} (h : Run env Calm s σ) {a : Nat} {key : Key} {cur : DelCur}
    (hc : σ.call a = .delete key) (hp : s.proc a = .del (.held cur)) :
    ∃ M ∈ σ.window a, ∃ k', M k' = some cur.op.value ∧ env.fetch cur.op.value = k' ∧ ((∀ M ∈ σ.window a, M key ≠ none) → k' = key) := by
  obtain ⟨t, seen, hI⟩ := h.inv
  have hkey : cur.key = key := by
    have := h.call a (.delete cur.key) (by rw [hp]; rfl)
    rw [hc] at this
    injection this with this; exact this.symm
  subst hkey
  have hP := hI.proc a
  rw [hp] at hP
  exact hI.candK (by rw [hp]; rfl) hP.1

/-- C06 with any number of other operations under way; `hcalm`: a delete from a 256-slot node does not hit a node that has been replaced, or has been
copied by a call that is about to replace it. -/
theorem C06_finalize_removes_one_key_concurrent_partial {env : Env} {s : Sys} {σ : Spec} (h : Run env Calm s σ) {a : Nat} {key : Key} {cur : DelCur}
    (hc : σ.call a = .delete key) (hp : s.proc a = .del (.held cur)) (hv : env.fetch cur.op.value = key)
    (hcalm : cur.op.kind = .deleteLeaf256 → s.st.load cur.op.leafPtr = cur.op.raw →
      ∃ p, cur.op.leafPtr = .slot p ∧ LiveSlot s.st p ∧ ¬ s.Copied p)
    {b : Bool} {st' : St} (hf : finalizeD s.st a cur.op = .ok (b, st')) :
    ∀ k, k ≠ [] → content env.fetch st' k = if b = true ∧ k = key then none else content env.fetch s.st k := by
  have hkey : cur.key = key := by
    have := h.call a (.delete cur.key) (by rw [hp]; rfl)
    rw [hc] at this
    injection this with this; exact this.symm
  subst hkey
  obtain ⟨t, seen, hI⟩ := h.inv
  unfold finalizeD at hf
  simp only [bind, Except.bind, pure, Except.pure] at hf
  split at hf
  · cases hf
  · rename_i r hpub
    obtain ⟨b1, tl, st1⟩ := r
    simp only at hf
    split at hf
    · cases hf
    · rename_i st2 ht
      cases hf
      have he : exec env.fetch s (.publish a 0) =
          some (.ok (s.set a st1 (.del (.tail b tl)), if b then .del cur.key else .none)) := by
        simp [exec, hp, hpub, bind, Except.bind, pure, Except.pure]
      have h1 : Run env Calm _ _ := .step h (by simpa [Env.Allowed, hp] using hv) (by simpa only [Calm, hp] using hcalm) he
      have h2 := runTail_step (b := b) h1 (a := a) (tl := tl) (st' := st') (.inr (by simp [Sys.set])) ht
      obtain ⟨t2, seen2, hI2⟩ := h2.inv
      intro k hk
      rw [hI.contents hk]
      have := hI2.contents hk
      simp only [Sys.set] at this
      rw [this]
      cases b with
      | false => simp [Spec.next]
      | true => simp [Spec.next, Spec.change, upd]

/-- There are executions in which a delete finds no candidate: "zoo". -/
example : ∃ s σ, Run demoEnv OneWriter s σ ∧ σ.call 1 = .delete [122, 111, 111] ∧ ∃ k, s.proc 1 = .del (.miss k) := by
  obtain ⟨s, σ, h1, h2⟩ := Run.ofCheck (h := demoKeys_good) (G := OneWriter) oneWriter_sound (n := 2)
    (acts := demoActs.take 33 ++ [.begin 1 (.delete [122, 111, 111]), .arm 1] ++ List.replicate 5 (.run 1))
    (check := fun s σ => decide (σ.call 1 = .delete [122, 111, 111]) && match s.proc 1 with | .del (.miss _) => true | _ => false)
    (by decide +kernel)
  simp only [Bool.and_eq_true, decide_eq_true_eq] at h2
  refine ⟨s, σ, h1, h2.1, ?_⟩
  have h3 := h2.2
  split at h3
  · exact ⟨_, by assumption⟩
  · cases h3

/-- There are executions with a prepared delete of a stored key, "bob", whose `Finalize` removes it. -/
example : ∃ s σ, Run demoEnv OneWriter s σ ∧ σ.call 1 = .delete [98, 111, 98] ∧ σ.map [98, 111, 98] = some 2 ∧
    ∃ cur st', s.proc 1 = .del (.held cur) ∧ demoEnv.fetch cur.op.value = [98, 111, 98] ∧
      finalizeD s.st 1 cur.op = .ok (true, st') ∧ content demoEnv.fetch st' [98, 111, 98] = none ∧
      content demoEnv.fetch st' [98, 97, 114] = some 3 := by
  obtain ⟨s, σ, h1, h2⟩ := Run.ofCheck (h := demoKeys_good) (G := OneWriter) oneWriter_sound (n := 2)
    (acts := demoActs.take 33 ++ [.begin 1 (.delete [98, 111, 98]), .arm 1] ++ List.replicate 11 (.run 1))
    (check := fun s σ => decide (σ.call 1 = .delete [98, 111, 98]) && decide (σ.map [98, 111, 98] = some 2) &&
      match s.proc 1 with
      | .del (.held cur) => decide (demoEnv.fetch cur.op.value = [98, 111, 98]) &&
        match finalizeD s.st 1 cur.op with
        | .ok (true, st') => decide (content demoEnv.fetch st' [98, 111, 98] = none) &&
            decide (content demoEnv.fetch st' [98, 97, 114] = some 3)
        | _ => false
      | _ => false) (by decide +kernel)
  simp only [Bool.and_eq_true, decide_eq_true_eq] at h2
  refine ⟨s, σ, h1, h2.1.1, h2.1.2, ?_⟩
  have h3 := h2.2
  split at h3
  · simp only [Bool.and_eq_true, decide_eq_true_eq] at h3
    have h4 := h3.2
    split at h4
    · simp only [Bool.and_eq_true, decide_eq_true_eq] at h4
      exact ⟨_, _, by assumption, h3.1, by assumption, h4.1, h4.2⟩
    · cases h4
  · cases h3

/-- The same in the middle of `PrepareUpdate("april")` of allocator 0. -/
example : ∃ s σ, Run demoEnv Calm s σ ∧ σ.call 1 = .delete [98, 111, 98] ∧ s.proc 0 ≠ .idle ∧
    ∃ cur st', s.proc 1 = .del (.held cur) ∧ demoEnv.fetch cur.op.value = [98, 111, 98] ∧ cur.op.kind ≠ .deleteLeaf256 ∧
      finalizeD s.st 1 cur.op = .ok (true, st') ∧ content demoEnv.fetch st' [98, 111, 98] = none := by
  obtain ⟨s, σ, h1, h2⟩ := Run.ofCheck (h := demoKeys_good) (G := Calm) calm_sound (n := 2)
    (acts := demoActs.take 33 ++ [.begin 0 (.update [97, 112, 114, 105, 108]), .arm 0] ++ List.replicate 7 (.run 0) ++
      [.begin 1 (.delete [98, 111, 98]), .arm 1] ++ List.replicate 11 (.run 1))
    (check := fun s σ => decide (σ.call 1 = .delete [98, 111, 98]) &&
      !(s.proc 0).isIdle &&
      match s.proc 1 with
      | .del (.held cur) => decide (demoEnv.fetch cur.op.value = [98, 111, 98]) && decide (cur.op.kind ≠ .deleteLeaf256) &&
        match finalizeD s.st 1 cur.op with
        | .ok (true, st') => decide (content demoEnv.fetch st' [98, 111, 98] = none)
        | _ => false
      | _ => false) (by decide +kernel)
  simp only [Bool.and_eq_true, decide_eq_true_eq] at h2
  obtain ⟨⟨h0, hu⟩, h3⟩ := h2
  refine ⟨s, σ, h1, h0, ?_, ?_⟩
  · intro hi
    rw [hi] at hu
    cases hu
  · split at h3
    · simp only [Bool.and_eq_true, decide_eq_true_eq] at h3
      have h4 := h3.2
      split at h4
      · exact ⟨_, _, by assumption, h3.1.1, h3.1.2, by assumption, by simpa using h4⟩
      · cases h4
    · cases h3

/-! ## C13: lookups, one load at a time -/

/-- C13, for lookups overlapping with any number of updates and deletes, which do not overlap with each other. -/
def LookupCorrect (env : Env) (σ : Spec) (a : Nat) (key : Key) : Option Word → Prop
  /- not found: there was a moment during the lookup at which the key was not stored -/
  | none => ∃ M ∈ σ.window a, M key = none
  /- found: the value was stored at some moment during the lookup; if the key was stored all the time, as a value of the key -/
  | some v => ∃ M ∈ σ.window a, ∃ k', M k' = some v ∧ env.fetch v = k' ∧ ((∀ M ∈ σ.window a, M key ≠ none) → k' = key)

theorem lookup_correct {env : Env} {s : Sys} {σ : Spec} (h : Run env Calm s σ) {a : Nat} {key k : Key} {res : Option Word}
    (hc : σ.call a = .lookup key) (hp : s.proc a = .rd (.done k res)) : LookupCorrect env σ a key res := by
  obtain ⟨t, seen, hI⟩ := h.inv
  have hkey : k = key := by
    have := h.call a (.lookup k) (by rw [hp]; rfl)
    rw [hc] at this
    injection this with this; exact this.symm
  subst hkey
  have hact : (s.proc a).active = true := by rw [hp]; rfl
  have hP := hI.proc a
  rw [hp] at hP
  cases res with
  | none => exact hI.absent hact (hP.1 rfl)
  | some v => exact hI.candK hact (hP.2 v rfl)

theorem C13_concurrent_lookup_is_correct_partial {env : Env} {s : Sys} {σ : Spec} (h : Run env OneWriter s σ) {a : Nat} {key k : Key}
    {res : Option Word} (hc : σ.call a = .lookup key) (hp : s.proc a = .rd (.done k res)) : LookupCorrect env σ a key res :=
  lookup_correct h.oneWriter.1 hc hp

theorem C13_concurrent_lookup_is_correct_calm_partial {env : Env} {s : Sys} {σ : Spec} (h : Run env Calm s σ) {a : Nat} {key k : Key}
    {res : Option Word} (hc : σ.call a = .lookup key) (hp : s.proc a = .rd (.done k res)) : LookupCorrect env σ a key res :=
  lookup_correct h hc hp

/-- There are executions in which a lookup that began before a delete of its key finishes after it, with the deleted value: the lookup
of "bob" has read the node with "bob" and "bar" before "bob" is deleted. -/
example : ∃ s σ, Run demoEnv OneWriter s σ ∧ σ.call 2 = .lookup [98, 111, 98] ∧ σ.map [98, 111, 98] = none ∧
    ∃ k, s.proc 2 = .rd (.done k (some 2)) := by
  obtain ⟨s, σ, h1, h2⟩ := Run.ofCheck (h := demoKeys_good) (G := OneWriter) oneWriter_sound (n := 3)
    (acts := demoActs.take 33 ++ [.begin 2 (.lookup [98, 111, 98]), .arm 2] ++ List.replicate 4 (.run 2) ++ delActs 1 [98, 111, 98] 11 ++
      List.replicate 3 (.run 2))
    (check := fun s σ => decide (σ.call 2 = .lookup [98, 111, 98]) && decide (σ.map [98, 111, 98] = none) &&
      match s.proc 2 with | .rd (.done _ (some 2)) => true | _ => false)
    (by decide +kernel)
  simp only [Bool.and_eq_true, decide_eq_true_eq] at h2
  refine ⟨s, σ, h1, h2.1.1, h2.1.2, ?_⟩
  have h3 := h2.2
  split at h3
  · exact ⟨_, by assumption⟩
  · cases h3

/-! ## C19: Len -/

theorem St.len_eq (st : St) : st.len = st.total := by
  unfold St.len St.total
  have : ∀ (l : List Nat) (x : Int), l.foldl (fun count a => count + (st.allocs a).itemCounter) x =
      x + (l.map fun a => (st.allocs a).itemCounter).sum := by
    intro l
    induction l with
    | nil => intro x; simp
    | cons b l ih => intro x; rw [List.foldl_cons, ih, List.map_cons, List.sum_cons]; omega
  exact this _ _

/-- C19: when no operation is under way, `Len` is the number of stored keys. -/
theorem C19_len_is_number_of_keys_partial {env : Env} {s : Sys} {σ : Spec} (h : Run env Calm s σ) (hidle : ∀ a, s.proc a = .idle) :
    ∃ l : List Key, l.Nodup ∧ (∀ k, k ∈ l ↔ σ.map k ≠ none) ∧ s.st.len = l.length := by
  obtain ⟨t, seen, hI⟩ := h.inv
  obtain ⟨l, h1, h2, h3⟩ := hI.mem.count
  refine ⟨l, h1, fun k => by rw [h2, hI.mem.content.some_iff], ?_⟩
  rw [St.len_eq, ← h3]
  have : s.items = 0 := by
    unfold Sys.items
    apply sum_zero_int
    intro a _
    rw [hidle a]; rfl
  omega

/-- There are executions with updates and deletes by two allocators after which nothing is under way; `Len` is 3. -/
example : ∃ s σ, Run demoEnv Calm s σ ∧ (∀ a, s.proc a = .idle) ∧ s.st.len = 3 := by
  obtain ⟨s, σ, h1, h2⟩ := Run.ofCheck (h := demoKeys_good) (G := Calm) calm_sound (n := 2) (acts := demoActs)
    (check := fun s _ => decide (s.st.nalloc = 2) && (List.range s.st.nalloc).all (fun b => (s.proc b).isIdle) && decide (s.st.len = 3))
    (by decide +kernel)
  simp only [Bool.and_eq_true, decide_eq_true_eq] at h2
  obtain ⟨t, seen, hI⟩ := h1.inv
  exact ⟨s, σ, h1, all_idle hI.mem.off h2.1.2, h2.2⟩

end Radix
