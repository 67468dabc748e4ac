import Verif.Sys.Complete
import Verif.Properties.Walk
/-!
# Property C41: sequences of operations run to their end
-/
set_option autoImplicit false
namespace Radix

/-! ## Specification -/

/-- An operation on a map, carried out by allocator `a`. -/
inductive MapOp
  | put (a : Nat) (key : Key) (value : Word)
  | del (a : Nat) (key : Key)
  deriving DecidableEq, Repr

/-- Its effect. -/
def MapOp.apply (M : Map) : MapOp → Map
  | .put _ key value => upd M key (some (trunc55 value))
  | .del _ key => upd M key none

/-- A call respecting the contract: the allocator exists, the value of an update refers to an object with its key, the key to delete is stored. -/
def MapOp.Valid (env : Env) (n : Nat) (M : Map) : MapOp → Prop
  | .put a key value => a < n ∧ env.keys key ∧ env.fetch (trunc55 value) = key
  | .del a key => a < n ∧ M key ≠ none

/-- All operations of the list, one after the other. -/
def ValidOps (env : Env) (n : Nat) : Map → List MapOp → Prop
  | _, [] => True
  | M, op :: ops => op.Valid env n M ∧ ValidOps env n (op.apply M) ops

/-- The steps up to the return of `PrepareUpdate` or `PrepareDelete`, `k` of them after `startOp`. -/
def MapOp.prepare (op : MapOp) (k : Nat) : List Act :=
  match op with
  | .put a key _ => prepareActs a (.update key) k
  | .del a key => prepareActs a (.delete key) k

/-- The first step of `Finalize`. -/
def MapOp.publish : MapOp → Act
  | .put a _ value => .publish a value
  | .del a _ => .publish a 0

/-- The rest of `Finalize`. -/
def MapOp.finish : MapOp → Act
  | .put a _ _ => .tail a
  | .del a _ => .tail a

/-- The operations have been carried out, one after the other, from beginning to end. -/
inductive Performs (fetch : Word → Key) : Sys → List MapOp → Sys → Prop
  | nil (s : Sys) : Performs fetch s [] s
  | cons {s s1 s2 : Sys} {op : MapOp} {ops : List MapOp} (k : Nat) :
      execs fetch s (op.prepare k ++ [op.publish, op.finish]) = some s1 → Performs fetch s1 ops s2 → Performs fetch s (op :: ops) s2

/-! ## The theorem -/

theorem putSteps_eq (a : Nat) (key : Key) (value : Word) (n : Nat) :
    putSteps a key value n = (MapOp.put a key value).prepare n ++ [(MapOp.put a key value).publish, (MapOp.put a key value).finish] := by
  simp [putSteps, MapOp.prepare, MapOp.publish, MapOp.finish, prepareActs]

theorem delSteps_eq (a : Nat) (key : Key) (n : Nat) :
    delSteps a key n = (MapOp.del a key).prepare n ++ [(MapOp.del a key).publish, (MapOp.del a key).finish] := by
  simp [delSteps, MapOp.prepare, MapOp.publish, MapOp.finish, prepareActs]

/-- The list is a list of updates. -/
def MapOp.isPut : MapOp → Bool
  | .put _ _ _ => true
  | .del _ _ => false

section
variable {env : Env} {G : Sys → Act → Prop} {R : Sys → Spec → Prop}
  (hR : ∀ {s σ act s' ev}, R s σ → env.Allowed s act → G s act → exec env.fetch s act = some (.ok (s', ev)) → R s' (σ.next ev))
  (hG : ∀ s act, Serial s act → ¬ s.DelPub act → G s act)
  (hC : ∀ s σ, R s σ → Run env Calm s σ)
include hR hG hC

theorem ops_alone : ∀ (ops : List MapOp) {s : Sys} {σ : Spec}, (hD : (∀ s act, Serial s act → G s act) ∨ ops.all MapOp.isPut = true) →
    R s σ → (∀ b, s.proc b = .idle) → ValidOps env s.st.nalloc σ.map ops →
    (∃ s' σ', Performs env.fetch s ops s' ∧ R s' σ' ∧ (∀ b, s'.proc b = .idle) ∧ σ'.map = ops.foldl MapOp.apply σ.map ∧
      s'.st.baNext ≤ s.st.baNext + 2 * ops.length ∧ s'.st.nalloc = s.st.nalloc) ∨
    ∃ done op rest s' k s1, ops = done ++ op :: rest ∧ Performs env.fetch s done s' ∧ execs env.fetch s' (op.prepare k) = some s1 ∧
      ((exec env.fetch s1 op.publish = some (.error .noBlocks) ∧ maxBlockCount < s'.st.baNext + 2 ∧ s'.st.baNext ≤ s.st.baNext + 2 * done.length) ∨
      (¬ env.Short ∧ ∃ s2 ev, exec env.fetch s1 op.publish = some (.ok (s2, ev)) ∧ exec env.fetch s2 op.finish = some (.error .index))) := by
  intro ops
  induction ops with
  | nil =>
    intro s σ _ h hidle _
    exact .inl ⟨s, σ, .nil s, h, hidle, rfl, by simp, rfl⟩
  | cons op ops ih =>
    intro s σ hD h hidle hv
    have hone : (∃ k s' σ', execs env.fetch s (op.prepare k ++ [op.publish, op.finish]) = some s' ∧ R s' σ' ∧
          (∀ b, s'.proc b = .idle) ∧ σ'.map = op.apply σ.map ∧ s'.st.baNext ≤ s.st.baNext + 2 ∧ s'.st.nalloc = s.st.nalloc) ∨
        (∃ k s1, execs env.fetch s (op.prepare k) = some s1 ∧ exec env.fetch s1 op.publish = some (.error .noBlocks) ∧
          maxBlockCount < s.st.baNext + 2) ∨
        (¬ env.Short ∧ ∃ k s1 s2 ev, execs env.fetch s (op.prepare k) = some s1 ∧
          exec env.fetch s1 op.publish = some (.ok (s2, ev)) ∧ exec env.fetch s2 op.finish = some (.error .index)) := by
      cases op with
      | put a key value =>
        obtain ⟨⟨v1, v2, v3⟩, _⟩ := hv
        have := put_alone hR hG hC h hidle v1 v2 v3
        simp only [putSteps_eq] at this
        exact this.imp_left fun ⟨n, s', σ', i1, i2, i3, i4, i5, i6, _⟩ => ⟨n, s', σ', i1, i2, i3, i4, i5, i6⟩
      | del a key =>
        obtain ⟨⟨v1, v2⟩, _⟩ := hv
        have hG' : ∀ s act, Serial s act → G s act := by
          rcases hD with hD | hD
          · exact hD
          · simp [MapOp.isPut] at hD
        have := del_alone hR hG' hC h hidle v1 v2
        simp only [delSteps_eq] at this
        exact this.imp_left fun ⟨n, s', σ', i1, i2, i3, i4, i5, i6, _⟩ => ⟨n, s', σ', i1, i2, i3, i4, i5, i6⟩
    have hD' : (∀ s act, Serial s act → G s act) ∨ ops.all MapOp.isPut = true := by
      rcases hD with hD | hD
      · exact .inl hD
      · simp only [List.all_cons, Bool.and_eq_true] at hD
        exact .inr hD.2
    rcases hone with ⟨k, s1, σ1, x1, h1, hid1, hm1, hb1, hn1⟩ | ⟨k, s1, x1, e1, hb⟩ | ⟨hs, k, s1, s2, ev, x1, e1, e2⟩
    · rcases ih hD' h1 hid1 (by rw [hn1, hm1]; exact hv.2) with ⟨s', σ', y1, y2, y3, y4, y5, y6⟩ | ⟨done, op', rest, s', k', s1', z1, z2, z3, z4⟩
      · refine .inl ⟨s', σ', .cons k x1 y1, y2, y3, by rw [y4, hm1]; rfl, ?_, y6.trans hn1⟩
        simp only [List.length_cons]; omega
      · refine .inr ⟨op :: done, op', rest, s', k', s1', by rw [z1]; rfl, .cons k x1 z2, z3, ?_⟩
        rcases z4 with ⟨z4, z5, z6⟩ | z4
        · refine .inl ⟨z4, z5, ?_⟩
          simp only [List.length_cons]; omega
        · exact .inr z4
    · exact .inr ⟨[], op, ops, s, k, s1, rfl, .nil s, x1, .inl ⟨e1, hb, by simp⟩⟩
    · exact .inr ⟨[], op, ops, s, k, s1, rfl, .nil s, x1, .inr ⟨hs, s2, ev, e1, e2⟩⟩

end

/-- C41: the operations of any list (updates, and deletes of stored keys), called one after the other by any allocators on a new tree with any
number of allocators, all run to their end, and then `Lookup` reads the map obtained from the list.  The only exceptions: an
operation finds no memory, and then at least 65535 blocks are in use; or (only if there are keys longer than nine bytes) `Finalize`
panics recycling a node of 258 slots (C10).  No call waits or starts again for ever, and none returns false. -/
theorem C41_sequences_run_to_the_end {env : Env} {n : Nat} {ops : List MapOp} (hv : ValidOps env n (fun _ => none) ops) :
    (∃ s, Performs env.fetch (Sys.new n) ops s ∧ (∀ b, s.proc b = .idle) ∧
      ∀ key, key ≠ [] → content env.fetch s.st key = ops.foldl MapOp.apply (fun _ => none) key) ∨
    ∃ done op rest s k s1, ops = done ++ op :: rest ∧ Performs env.fetch (Sys.new n) done s ∧ execs env.fetch s (op.prepare k) = some s1 ∧
      ((exec env.fetch s1 op.publish = some (.error .noBlocks) ∧ 65535 ≤ s.st.baNext) ∨
      ((∃ key, env.keys key ∧ 9 < key.length) ∧ ∃ s2 ev, exec env.fetch s1 op.publish = some (.ok (s2, ev)) ∧
        exec env.fetch s2 op.finish = some (.error .index))) := by
  rcases ops_alone (env := env) (G := Serial) (R := Run env Serial) Run.step (fun _ _ h _ => h) (fun _ _ h => h.serial.1) ops
    (.inl fun _ _ h => h) (Run.init n) (fun _ => rfl) hv with ⟨s, σ, h1, h2, h3, h4, _⟩ | ⟨done, op, rest, s, k, s1, h1, h2, h3, h4⟩
  · refine .inl ⟨s, h1, h3, fun key hk => ?_⟩
    obtain ⟨t, seen, hI⟩ := h2.serial.1.inv
    rw [hI.contents hk, h4]; rfl
  · refine .inr ⟨done, op, rest, s, k, s1, h1, h2, h3, ?_⟩
    rcases h4 with ⟨h4, h5, _⟩ | ⟨h4, h5⟩
    · refine .inl ⟨h4, ?_⟩
      unfold maxBlockCount at h5
      omega
    · refine .inr ⟨?_, h5⟩
      apply Classical.byContradiction
      intro hn
      exact h4 fun k hk => Nat.le_of_not_lt fun hlt => hn ⟨k, hk, hlt⟩

/-- C41: the result is determined: the number of steps of `Prepare...` is not a choice. -/
theorem C41_result_is_determined {fetch : Word → Key} {s : Sys} {ops : List MapOp} {s1 s2 : Sys} (h1 : Performs fetch s ops s1)
    (h2 : Performs fetch s ops s2) : s1 = s2 := by
  induction h1 with
  | nil s => cases h2; rfl
  | @cons s sa sb op ops k x1 _ ih =>
    cases h2 with
    | cons k' y1 h2 =>
      have hop : ∃ a c v, (∀ k, op.prepare k = [.begin a c, .arm a] ++ List.replicate k (.run a)) ∧ op.publish = .publish a v := by
        cases op with
        | put a key v => exact ⟨a, .update key, v, fun _ => rfl, rfl⟩
        | del a key => exact ⟨a, .delete key, 0, fun _ => rfl, rfl⟩
      obtain ⟨a, c, v, hpre, hpub⟩ := hop
      suffices hkk : k = k' by
        subst hkk
        rw [x1] at y1
        cases y1
        exact ih h2
      have key : ∀ {k k' : Nat} {s1 s2 : Sys}, k < k' → execs fetch s (op.prepare k ++ [op.publish, op.finish]) = some s1 →
          execs fetch s (op.prepare k' ++ [op.publish, op.finish]) = some s2 → False := by
        intro k k' s1 s2 hlt e1 e2
        obtain ⟨d, rfl⟩ : ∃ d, k' = k + (d + 1) := ⟨k' - k - 1, by omega⟩
        rw [execs_append] at e1
        have e3 : op.prepare (k + (d + 1)) ++ [op.publish, op.finish] =
            op.prepare k ++ (.run a :: (List.replicate d (.run a) ++ [op.publish, op.finish])) := by
          rw [hpre, hpre, ← List.replicate_append_replicate, List.replicate_succ]
          simp
        rw [e3, execs_append] at e2
        cases hs : execs fetch s (op.prepare k) with
        | none => rw [hs] at e1; cases e1
        | some sm =>
          rw [hs] at e1 e2
          simp only [Option.bind_some, execs, hpub] at e1 e2
          simp only [exec] at e1 e2
          cases hp : sm.proc a with
          | idle => rw [hp] at e1; cases e1
          | arm _ _ => rw [hp] at e1; cases e1
          | rd _ => rw [hp] at e1; cases e1
          | walk => rw [hp] at e1; cases e1
          | updB _ _ _ => rw [hp] at e1; cases e1
          | delB _ _ => rw [hp] at e1; cases e1
          | upd ph =>
            rw [hp] at e1 e2
            cases ph <;> first | (cases e1; done) | cases e2
          | del ph =>
            rw [hp] at e1 e2
            cases ph <;> first | (cases e1; done) | cases e2
      rcases Nat.lt_trichotomy k k' with h | h | h
      · exact (key h x1 y1).elim
      · exact h
      · exact (key h y1 x1).elim

/-- C41, without exceptions, for keys of at most nine bytes and up to 32768 operations. -/
theorem C41_short_sequences_run_to_the_end {env : Env} (hs : ∀ key, env.keys key → key.length ≤ 9) {n : Nat} {ops : List MapOp}
    (hv : ValidOps env n (fun _ => none) ops) (hlen : ops.length ≤ 32768) :
    ∃ s, Performs env.fetch (Sys.new n) ops s ∧ (∀ b, s.proc b = .idle) ∧
      ∀ key, key ≠ [] → content env.fetch s.st key = ops.foldl MapOp.apply (fun _ => none) key := by
  rcases ops_alone (env := env) (G := Serial) (R := Run env Serial) Run.step (fun _ _ h _ => h) (fun _ _ h => h.serial.1) ops
    (.inl fun _ _ h => h) (Run.init n) (fun _ => rfl) hv with ⟨s, σ, h1, h2, h3, h4, _⟩ | ⟨done, op, rest, s, k, s1, h1, h2, h3, h4⟩
  · refine ⟨s, h1, h3, fun key hk => ?_⟩
    obtain ⟨t, seen, hI⟩ := h2.serial.1.inv
    rw [hI.contents hk, h4]; rfl
  · exfalso
    rcases h4 with ⟨_, h5, h6⟩ | ⟨h4, _⟩
    · have h7 : (Sys.new n).st.baNext = 0 := rfl
      rw [h1] at hlen
      simp only [List.length_append, List.length_cons] at hlen
      unfold maxBlockCount at h5
      omega
    · exact h4 hs

/-- The hypotheses are met: two allocators; "apple", "april" and "bob" are stored, "apple" again with another value, "april" is deleted. -/
example : (∀ key, demoEnv.keys key → key.length ≤ 9) ∧
    ValidOps demoEnv 2 (fun _ => none) [.put 0 [97, 112, 112, 108, 101] 0, .put 1 [97, 112, 114, 105, 108] 1, .put 0 [98, 111, 98] 2,
      .put 1 [97, 112, 112, 108, 101] 4, .del 0 [97, 112, 114, 105, 108]] := by
  refine ⟨?_, ?_⟩
  · intro key hk
    simp only [demoEnv, Env.ofList, demoKeys, List.mem_cons, List.not_mem_nil, or_false] at hk
    rcases hk with rfl | rfl | rfl | rfl <;> simp
  · refine ⟨⟨by decide, ?_, by decide +kernel⟩, ⟨by decide, ?_, by decide +kernel⟩, ⟨by decide, ?_, by decide +kernel⟩,
      ⟨by decide, ?_, by decide +kernel⟩, ⟨by decide, ?_⟩, trivial⟩
    · simp [demoEnv, Env.ofList, demoKeys]
    · simp [demoEnv, Env.ofList, demoKeys]
    · simp [demoEnv, Env.ofList, demoKeys]
    · simp [demoEnv, Env.ofList, demoKeys]
    · simp [MapOp.apply, upd]

end Radix
