import Verif.Sys.Budget
import Verif.Demo
/-!
# C49: the memory suffices for a number of operations

There are 65536 blocks of 2 MiB.  A call of `Finalize` requests at most two nodes, and a node of a tree with keys of at most `L` bytes has at most
`256 + prefixSlots L` slots; so a number of calls, however they interleave, cannot use up the blocks.
-/
set_option autoImplicit false
namespace Radix
open T

/-! ## Executions with the number of their `Finalize` calls -/

/-- Executions as in `Run`, with the number of `Finalize` calls made so far. -/
inductive RunK (env : Env) (G : Sys → Act → Prop) : Nat → Sys → Spec → Prop
  | init (n : Nat) : RunK env G 0 (Sys.new n) .init
  | reload {k s σ} : RunK env G k s σ → s.Savable → RunK env G k ⟨s.st.restore, fun _ => .idle⟩ σ
  | step {k s σ act s' ev} : RunK env G k s σ → env.Allowed s act → G s act → exec env.fetch s act = some (.ok (s', ev)) →
      RunK env G (k + act.alloc) s' (σ.next ev)

theorem RunK.run {env : Env} {G : Sys → Act → Prop} {k : Nat} {s : Sys} {σ : Spec} (h : RunK env G k s σ) : Run env G s σ := by
  induction h with
  | init n => exact .init n
  | reload _ hs ih => exact .reload ih hs
  | step _ h1 h2 h3 ih => exact .step ih h1 h2 h3

/-- Every execution has a number of `Finalize` calls. -/
theorem Run.counted {env : Env} {G : Sys → Act → Prop} {s : Sys} {σ : Spec} (h : Run env G s σ) : ∃ k, RunK env G k s σ := by
  induction h with
  | init n => exact ⟨0, .init n⟩
  | reload _ hs ih => exact ih.imp fun _ h => .reload h hs
  | step _ h1 h2 h3 ih =>
    obtain ⟨k, ih⟩ := ih
    exact ⟨_, .step ih h1 h2 h3⟩

theorem restore_bump {s : Sys} (hs : s.Savable) : KeepBump s.st s.st.restore := by
  refine ⟨nextFreeBlock_of hs.ready, rfl, fun a ha => ?_⟩
  simp only [St.restore, if_pos ha]
  rfl

theorem RunK.spent {env : Env} {k : Nat} {s : Sys} {σ : Spec} (h : RunK env Calm k s σ) {L S : Nat}
    (hlen : ∀ k, env.keys k → k.length ≤ L) (hL : 256 + prefixSlots L ≤ S) (hS : 8 * S ≤ blockSize) :
    InBlock s.st ∧ Radix.spent S s.st ≤ 16 * S * k := by
  induction h with
  | init n =>
    have hi : InBlock (Sys.new n).st := fun _ _ => Nat.le_refl _
    refine ⟨hi, ?_⟩
    have := left_nonneg hi
    have e : (Sys.new n).st.baNext = 0 := rfl
    unfold Radix.spent
    rw [e]
    omega
  | reload _ hs ih =>
    have hk := restore_bump hs
    exact ⟨hk.inBlock ih.1, by rw [hk.spent]; exact ih.2⟩
  | step h0 h1 h2 h3 ih =>
    obtain ⟨t, seen, hI⟩ := h0.run.inv
    obtain ⟨g1, _, g3⟩ := exec_spends hI hlen hL hS h3 ih.1
    refine ⟨g1, ?_⟩
    have := ih.2
    rw [Int.natCast_add, Int.mul_add]
    omega

/-- What the blocks handed out are used for: at most two nodes of `S` slots for each call of `Finalize`, and the current block of each allocator;
of each block, at most one request (of `S` slots) is wasted at the end. -/
theorem RunK.blocks {env : Env} {k : Nat} {s : Sys} {σ : Spec} (h : RunK env Calm k s σ) {L S : Nat}
    (hlen : ∀ k, env.keys k → k.length ≤ L) (hL : 256 + prefixSlots L ≤ S) (hS : 8 * S ≤ blockSize) :
    s.st.baNext * (blockSize - 8 * S) ≤ 16 * S * k + s.st.nalloc * blockSize := by
  obtain ⟨_, h2⟩ := h.spent hlen hL hS
  have h3 := left_le s.st
  unfold Radix.spent at h2
  have e : ((blockSize - 8 * S : Nat) : Int) = (blockSize : Int) - 8 * S := by omega
  have : ((s.st.baNext * (blockSize - 8 * S) : Nat) : Int) ≤ ((16 * S * k + s.st.nalloc * blockSize : Nat) : Int) := by
    rw [Int.natCast_mul, e]
    push_cast
    omega
  exact Int.ofNat_le.1 this

theorem RunK.owes {env : Env} {k : Nat} {s : Sys} {σ : Spec} (h : RunK env Calm k s σ) {L : Nat}
    (hlen : ∀ k, env.keys k → k.length ≤ L + 1) : ∀ a, (s.proc a).owed ≤ 256 + prefixSlots L := by
  induction h with
  | init n => exact fun _ => Nat.zero_le _
  | reload _ _ _ => exact fun _ => Nat.zero_le _
  | step h0 _ _ h3 ih =>
    obtain ⟨t, seen, hI⟩ := h0.run.inv
    exact exec_owes hI hlen h3 ih

/-! ## C49 -/

/-- C49, in full. -/
def C49_statement : Prop :=
  ∀ (env : Env), (∀ k, env.keys k → k.length ≤ 1000) → ∀ (k : Nat) (s : Sys) (σ : Spec), RunK env (fun _ _ => True) k s σ → k ≤ 20000000 →
    s.st.nalloc ≤ 1000 → ∀ act, env.Allowed s act → exec env.fetch s act ≠ some (.error .noBlocks)

/-- C49 for any bound on the length of the keys: if `k` calls of `Finalize` have been made, and `16 * S * k` bytes together with one block for each
allocator are less than all blocks but one without `8 * S` bytes in each, no step fails because there is no block left. -/
theorem C49_enough_partial {env : Env} {L : Nat} (hlen : ∀ k, env.keys k → k.length ≤ L) {k : Nat} {s : Sys} {σ : Spec}
    (h : RunK env Calm k s σ) (hS : 8 * (256 + prefixSlots L) ≤ blockSize)
    (hk : 16 * (256 + prefixSlots L) * k + s.st.nalloc * blockSize < (maxBlockCount - 1) * (blockSize - 8 * (256 + prefixSlots L)))
    {act : Act} (hall : env.Allowed s act) (hcalm : Calm s act) : exec env.fetch s act ≠ some (.error .noBlocks) := by
  intro he
  obtain ⟨t, seen, hI⟩ := h.run.inv
  have h1 := exec_noBlocks he hI hall hcalm
  have h2 := h.blocks hlen (Nat.le_refl _) hS
  have h3 : (maxBlockCount - 1) * (blockSize - 8 * (256 + prefixSlots L)) ≤ s.st.baNext * (blockSize - 8 * (256 + prefixSlots L)) :=
    Nat.mul_le_mul_right _ (by omega)
  omega

/-- C49, in calm executions: with keys of at most 1000 bytes and at most 1000 allocators, 20 million calls of `Finalize` do not use up the blocks. -/
theorem C49_memory_partial {env : Env} (hlen : ∀ k, env.keys k → k.length ≤ 1000) {k : Nat} {s : Sys} {σ : Spec} (h : RunK env Calm k s σ)
    (hk : k ≤ 20000000) (hn : s.st.nalloc ≤ 1000) {act : Act} (hall : env.Allowed s act) (hcalm : Calm s act) :
    exec env.fetch s act ≠ some (.error .noBlocks) := by
  have e1 : prefixSlots 1000 = 126 := by decide
  have e2 : blockSize = 2097152 := by decide
  have e3 : maxBlockCount = 65536 := by decide
  refine C49_enough_partial hlen h ?_ ?_ hall hcalm
  · rw [e1, e2]; omega
  · rw [e1, e2, e3]; omega

/-- C49 and C10 together: with keys of at most nine bytes and at most 1000 allocators, no step of any operation panics during 32 million calls of
`Finalize`, however the operations interleave, except `Abort` of a delete that would merge the root with its child (C08). -/
theorem C49_no_panic_partial {env : Env} (hlen : ∀ k, env.keys k → k.length ≤ 9) {k : Nat} {s : Sys} {σ : Spec} (h : RunK env Calm k s σ)
    (hk : k ≤ 32000000) (hn : s.st.nalloc ≤ 1000) {act : Act} (hall : env.Allowed s act) (hcalm : Calm s act) {e : Panic}
    (he : exec env.fetch s act = some (.error e)) :
    ∃ a cur, act = .abort a ∧ s.proc a = .del (.held cur) ∧ cur.op.kind = .replaceNodeWithNode ∧ cur.op.parent = 0 := by
  have e1 : prefixSlots 9 = 2 := by decide
  have e2 : blockSize = 2097152 := by decide
  have e3 : maxBlockCount = 65536 := by decide
  have e4 : prefixSlots 8 = 1 := by decide
  rcases C10_panics_partial h.run hall hcalm he with ⟨_, rfl⟩ | ⟨a, rfl, _, b, tl, n, hp, hf⟩ | ⟨a, rfl, _, cur, hp, h1, h2⟩
  · refine absurd he (C49_enough_partial hlen h ?_ ?_ hall hcalm)
    · rw [e1, e2]; omega
    · rw [e1, e2, e3]; omega
  · have ho := h.owes (L := 8) hlen a
    have hs : tl.size = 258 := by simp [Tail.size, hf]
    rw [e4] at ho
    rcases hp with hp | hp
    · rw [hp] at ho
      simp only [Proc.owed, hs] at ho
      omega
    · rw [hp] at ho
      simp only [Proc.owed, hs] at ho
      omega
  · exact ⟨a, cur, rfl, hp, h1, h2⟩

/-! ## Example -/

theorem RunK.trace {l h} {G : Sys → Act → Prop} {g : Sys → Act → Bool}
    (hg : ∀ s σ act, Run (Env.ofList l h) G s σ → g s act = true → G s act) :
    ∀ {acts k s σ s' σ'}, RunK (Env.ofList l h) G k s σ → Radix.trace l g s σ acts = some (s', σ') →
      RunK (Env.ofList l h) G (k + (acts.map Act.alloc).sum) s' σ'
  | [], k, s, σ, s', σ', hr, ht => by
    simp only [Radix.trace, Option.some.injEq, Prod.mk.injEq] at ht
    obtain ⟨rfl, rfl⟩ := ht
    exact hr
  | act :: acts, k, s, σ, s', σ', hr, ht => by
    simp only [Radix.trace] at ht
    split at ht
    · rename_i hb
      simp only [Bool.and_eq_true] at hb
      split at ht
      · rename_i s1 ev he
        have := RunK.trace hg (.step hr (allowedB_sound hb.1) (hg _ _ _ hr.run hb.2) he) ht
        rwa [Nat.add_assoc, ← List.sum_cons, ← List.map_cons] at this
      · cases ht
    · cases ht

/-- Two allocators: four keys are inserted, one is deleted, one gets a new value; then both begin an update, and the next step of the first one is
`Finalize`, which takes memory: the leaf found is that of another key. -/
example : ∃ s σ f op, RunK demoEnv Calm 6 s σ ∧ s.st.nalloc = 2 ∧ (∀ k, demoEnv.keys k → k.length ≤ 9) ∧
    s.proc 0 = .upd (.held f op) ∧ op.kind = .nodeLeafUpdate ∧ demoEnv.fetch op.value ≠ op.key ∧ (∃ ph, s.proc 1 = .upd ph) ∧
    demoEnv.Allowed s (.publish 0 2) ∧ Calm s (.publish 0 2) := by
  have hc : checkTrace demoKeys calmB 2 (demoActs ++ [.begin 0 (.update [98, 111, 98]), .arm 0] ++ List.replicate 6 (.run 0) ++
      [.begin 1 (.update [97, 112, 112, 108, 101]), .arm 1] ++ List.replicate 2 (.run 1))
      (fun s _ => (match s.proc 0 with
        | .upd (.held _ op) => op.kind == .nodeLeafUpdate && demoEnv.fetch op.value != op.key
        | _ => false) && (match s.proc 1 with
        | .upd _ => true
        | _ => false) && s.st.nalloc == 2 && allowedB demoKeys s (.publish 0 2)) = true := by decide +kernel
  unfold checkTrace at hc
  split at hc
  · rename_i s σ ht
    have hr := RunK.trace (h := demoKeys_good) calm_sound (.init 2) ht
    simp only [Bool.and_eq_true, beq_iff_eq] at hc
    obtain ⟨⟨⟨h1, h2⟩, h3⟩, h4⟩ := hc
    split at h1
    · rename_i f op hp
      rw [Bool.and_eq_true] at h1
      split at h2
      · rename_i ph hp2
        refine ⟨s, σ, f, op, hr, h3, ?_, hp, eq_of_beq h1.1, by simpa using h1.2, ⟨ph, hp2⟩, allowedB_sound h4, by simp [Calm, hp]⟩
        intro k hk
        have hk : k ∈ demoKeys := hk
        simp only [demoKeys, List.mem_cons, List.not_mem_nil, or_false] at hk
        rcases hk with rfl | rfl | rfl | rfl <;> decide
      · cases h2
    · cases h1
  · cases hc

end Radix
