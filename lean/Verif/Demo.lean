import Verif.Sys.Seq
/-!
# Concrete executions

`trace` executes a list of steps, checking the contract and a restriction on the way; `Run.ofTrace` turns the result into a `Run`.
This is used for the examples beside the theorems and for the counterexamples.
-/
namespace Radix

deriving instance DecidableEq for Except

/-- Nonempty, not too long, none a prefix of another. -/
def goodKeys (l : List Key) : Bool :=
  l.all fun k => !k.isEmpty && decide (k.length < 2000000) && l.all fun k' => !(k.isPrefixOf k') || decide (k = k')

/-- A caller with a finite set of keys; value `v` refers to an object with the key of index `v % l.length`. -/
def Env.ofList (l : List Key) (h : goodKeys l = true) : Env where
  keys k := k ∈ l
  fetch v := l.getD (v.toNat % l.length) []
  ne {k} hk := by
    have := List.all_eq_true.1 h k hk
    simp only [Bool.and_eq_true] at this
    intro e
    rw [e] at this
    simp at this
  len {k} hk := by
    have := List.all_eq_true.1 h k hk
    simp only [Bool.and_eq_true, decide_eq_true_eq] at this
    exact this.1.2
  free {k k'} hk hk' hp := by
    have := List.all_eq_true.1 h k hk
    simp only [Bool.and_eq_true] at this
    have := List.all_eq_true.1 this.2 k' hk'
    simpa [List.isPrefixOf_iff_prefix.2 hp] using this

/-- `Env.Allowed`, decided. -/
def allowedB (l : List Key) (s : Sys) : Act → Bool
  | .begin _ (.update key) => decide (key ∈ l)
  | .begin _ (.delete key) => decide (key ≠ [])
  | .begin _ (.lookup key) => decide (key ≠ [])
  | .publish a value | .build a value =>
    match s.proc a with
    | .upd (.held _ op) => decide (l.getD ((trunc55 value).toNat % l.length) [] = op.key)
    | .del (.held cur) => decide (l.getD (cur.op.value.toNat % l.length) [] = cur.key)
    | _ => true
  | _ => true

theorem allowedB_sound {l h s act} (hb : allowedB l s act = true) : (Env.ofList l h).Allowed s act := by
  cases act with
  | begin a c => cases c <;> simpa [allowedB, Env.Allowed, Env.ofList] using hb
  | publish a v =>
    simp only [allowedB] at hb
    simp only [Env.Allowed]
    split <;> simp_all [Env.ofList]
  | build a v =>
    simp only [allowedB] at hb
    simp only [Env.Allowed]
    split <;> simp_all [Env.ofList]
  | _ => trivial

def Proc.isIdle : Proc → Bool
  | .idle => true
  | _ => false

theorem Proc.idle_of {p : Proc} (h : p.isIdle = true) : p = .idle := by
  cases p <;> first | rfl | cases h

/-- A condition that implies `Calm` for `quit`. -/
def quitB (s : Sys) (a : Nat) : Bool :=
  match s.proc a with
  | .del (.held cur) => decide (cur.op.kind ≠ .replaceNodeWithNode) || decide (cur.op.parent ≠ 0)
  | _ => true

theorem quitB_sound {s : Sys} {a : Nat} (h : quitB s a = true) : Calm s (.quit a) := by
  unfold quitB at h
  simp only [Calm]
  split at h <;> rename_i hp
  · simp only [hp]
    intro h1 h2
    simp only [Bool.or_eq_true, decide_eq_true_eq] at h
    rcases h with h | h
    · exact absurd h1 h
    · exact absurd h2 h
  · split <;> simp_all

/-- `Serial`, decided for allocators in use. -/
def serialB (s : Sys) : Act → Bool
  | .begin _ (.lookup _) => (List.range s.st.nalloc).all (fun b => (s.proc b).isIdle) && decide (0 < s.st.nblocks)
  | .begin _ .walk => (List.range s.st.nalloc).all (fun b => (s.proc b).isIdle) && decide (0 < s.st.nblocks)
  | .begin _ _ => (List.range s.st.nalloc).all fun b => (s.proc b).isIdle
  | .quit a => quitB s a
  | _ => true

/-- `OneWriter`, decided for allocators in use. -/
def oneWriterB (s : Sys) : Act → Bool
  | .begin _ (.lookup _) => decide (0 < s.st.nblocks)
  | .begin _ .walk => decide (0 < s.st.nblocks)
  | .begin _ _ => (List.range s.st.nalloc).all fun b => !(s.proc b).writer
  | .quit a => quitB s a
  | _ => true

/-- A condition that implies `Calm`, decided for allocators in use. -/
def calmB (s : Sys) : Act → Bool
  | .begin _ (.lookup _) => decide (0 < s.st.nblocks)
  | .begin _ .walk => decide (0 < s.st.nblocks)
  | .run a =>
    match s.proc a with
    | .upd (.par op) => decide (op.parent = 0) || (List.range s.st.nalloc).all fun b => (s.proc b).tail?.isNone
    | .del (.par cur) => decide (cur.op.parent = 0) || (List.range s.st.nalloc).all fun b => (s.proc b).tail?.isNone
    | .del (.lock3 cur _ _) => decide (s.st.gen cur.op.node = cur.op.nodeGen) &&
        (decide (cur.op.parent = 0) || decide (s.st.gen cur.op.parent = cur.op.parentGen))
    | _ => true
  | .publish a _ =>
    match s.proc a with
    | .del (.held cur) => decide (cur.op.kind ≠ .deleteLeaf256) || decide (s.st.load cur.op.leafPtr ≠ cur.op.raw)
    | _ => true
  | .commit a =>
    match s.proc a with
    | .delB cur _ => decide (cur.op.kind ≠ .deleteLeaf256) || decide (s.st.load cur.op.leafPtr ≠ cur.op.raw)
    | _ => true
  | .quit a => quitB s a
  | .abort a =>
    match s.proc a with
    | .del (.held cur) => decide (cur.op.kind ≠ .replaceNodeWithNode) || decide (cur.op.parent ≠ 0) || decide (s.st.gen 0 % 2 = 0)
    | _ => true
  | _ => true

theorem all_idle {s : Sys} (hoff : ∀ b, s.st.nalloc ≤ b → s.proc b = .idle)
    (h : (List.range s.st.nalloc).all (fun b => (s.proc b).isIdle) = true) (b : Nat) : s.proc b = .idle := by
  by_cases hb : b < s.st.nalloc
  · exact Proc.idle_of (List.all_eq_true.1 h b (List.mem_range.2 hb))
  · exact hoff b (by omega)

theorem serialB_sound {s : Sys} (hoff : ∀ b, s.st.nalloc ≤ b → s.proc b = .idle) {act : Act} (h : serialB s act = true) :
    Serial s act := by
  cases act with
  | begin a c =>
    cases c with
    | lookup key =>
      simp only [serialB, Bool.and_eq_true, decide_eq_true_eq] at h
      exact ⟨all_idle hoff h.1, h.2⟩
    | walk =>
      simp only [serialB, Bool.and_eq_true, decide_eq_true_eq] at h
      exact ⟨all_idle hoff h.1, h.2⟩
    | update key => exact all_idle hoff h
    | delete key => exact all_idle hoff h
  | quit a => exact quitB_sound h
  | _ => trivial

theorem oneWriterB_sound {s : Sys} (hoff : ∀ b, s.st.nalloc ≤ b → s.proc b = .idle) {act : Act} (h : oneWriterB s act = true) :
    OneWriter s act := by
  have key : (List.range s.st.nalloc).all (fun b => !(s.proc b).writer) = true → ∀ b, (s.proc b).writer = false := by
    intro h b
    by_cases hb : b < s.st.nalloc
    · simpa using List.all_eq_true.1 h b (List.mem_range.2 hb)
    · rw [hoff b (by omega)]; rfl
  cases act with
  | begin a c =>
    cases c with
    | lookup key => exact (of_decide_eq_true h : 0 < s.st.nblocks)
    | walk => exact (of_decide_eq_true h : 0 < s.st.nblocks)
    | update k => exact key h
    | delete k => exact key h
  | quit a => exact quitB_sound h
  | _ => trivial

theorem calmB_sound {s : Sys} (hoff : ∀ b, s.st.nalloc ≤ b → s.proc b = .idle) {act : Act} (h : calmB s act = true) :
    Calm s act := by
  have key : (List.range s.st.nalloc).all (fun b => (s.proc b).tail?.isNone) = true → ∀ n, ¬ s.Window n := by
    rintro h n ⟨b, tl, h1, _⟩
    by_cases hb : b < s.st.nalloc
    · have := List.all_eq_true.1 h b (List.mem_range.2 hb)
      rw [h1] at this
      cases this
    · rw [hoff b (by omega)] at h1; cases h1
  cases act with
  | begin a c =>
    cases c with
    | lookup key => exact (of_decide_eq_true h : 0 < s.st.nblocks)
    | walk => exact (of_decide_eq_true h : 0 < s.st.nblocks)
    | _ => trivial
  | run a =>
    simp only [calmB] at h
    simp only [Calm]
    split at h <;> rename_i hp <;> simp only [hp]
    · intro h1 _
      simp only [Bool.or_eq_true, decide_eq_true_eq] at h
      rcases h with h | h
      · exact absurd h h1
      · exact .inl (key h _)
    · intro h1 _
      simp only [Bool.or_eq_true, decide_eq_true_eq] at h
      rcases h with h | h
      · exact absurd h h1
      · exact .inl (key h _)
    · simp only [Bool.and_eq_true, Bool.or_eq_true, decide_eq_true_eq] at h
      intro _
      exact ⟨h.1, fun h0 => h.2.resolve_left h0⟩
  | publish a v =>
    simp only [calmB] at h
    simp only [Calm]
    split at h <;> rename_i hp
    · simp only [hp]
      intro h1 h2
      simp only [Bool.or_eq_true, decide_eq_true_eq] at h
      rcases h with h | h
      · exact absurd h1 h
      · exact absurd h2 h
    · split <;> simp_all
  | commit a =>
    simp only [calmB] at h
    simp only [Calm]
    split at h <;> rename_i hp
    · simp only [hp]
      intro h1 h2
      simp only [Bool.or_eq_true, decide_eq_true_eq] at h
      rcases h with h | h
      · exact absurd h1 h
      · exact absurd h2 h
    · split <;> simp_all
  | abort a =>
    simp only [calmB] at h
    simp only [Calm]
    split at h <;> rename_i hp
    · simp only [hp]
      intro h1 h2
      simp only [Bool.or_eq_true, decide_eq_true_eq] at h
      rcases h with (h | h) | h
      · exact absurd h1 h
      · exact absurd h2 h
      · exact .inr (.inr h)
    · split <;> simp_all
  | quit a => exact quitB_sound h
  | _ => trivial

/-- Execute a list of steps that respect the contract and the restriction `g`. -/
def trace (l : List Key) (g : Sys → Act → Bool) : Sys → Spec → List Act → Option (Sys × Spec)
  | s, σ, [] => some (s, σ)
  | s, σ, act :: acts =>
    if allowedB l s act && g s act then
      match exec (fun v => l.getD (v.toNat % l.length) []) s act with
      | some (.ok (s', ev)) => trace l g s' (σ.next ev) acts
      | _ => none
    else none

theorem Run.trace {l h} {G : Sys → Act → Prop} {g : Sys → Act → Bool}
    (hg : ∀ s σ act, Run (Env.ofList l h) G s σ → g s act = true → G s act) :
    ∀ {acts s σ s' σ'}, Run (Env.ofList l h) G s σ → Radix.trace l g s σ acts = some (s', σ') → Run (Env.ofList l h) G s' σ'
  | [], s, σ, s', σ', hr, ht => by
    simp only [Radix.trace, Option.some.injEq, Prod.mk.injEq] at ht
    obtain ⟨rfl, rfl⟩ := ht
    exact hr
  | act :: acts, s, σ, s', σ', hr, ht => by
    simp only [Radix.trace] at ht
    split at ht
    · rename_i hb
      simp only [Bool.and_eq_true] at hb
      split at ht
      · rename_i s1 ev he
        exact Run.trace hg (.step hr (allowedB_sound hb.1) (hg _ _ _ hr hb.2) he) ht
      · cases ht
    · cases ht

/-- The state after a list of steps satisfies `check`. -/
def checkTrace (l : List Key) (g : Sys → Act → Bool) (n : Nat) (acts : List Act) (check : Sys → Spec → Bool) : Bool :=
  match trace l g (Sys.new n) .init acts with
  | some (s, σ) => check s σ
  | none => false

theorem Run.ofCheck {l h} {G : Sys → Act → Prop} {g : Sys → Act → Bool}
    (hg : ∀ s σ act, Run (Env.ofList l h) G s σ → g s act = true → G s act) {n acts check}
    (hc : checkTrace l g n acts check = true) : ∃ s σ, Run (Env.ofList l h) G s σ ∧ check s σ = true := by
  unfold checkTrace at hc
  split at hc
  · rename_i s σ ht
    exact ⟨s, σ, Run.trace hg (.init n) ht, hc⟩
  · cases hc

theorem serial_sound {env : Env} (s : Sys) (σ : Spec) (act : Act) (h : Run env Serial s σ) (hb : serialB s act = true) : Serial s act := by
  obtain ⟨t, seen, hI⟩ := h.calm.inv
  exact serialB_sound hI.mem.off hb

theorem oneWriter_sound {env : Env} (s : Sys) (σ : Spec) (act : Act) (h : Run env OneWriter s σ) (hb : oneWriterB s act = true) :
    OneWriter s act := by
  obtain ⟨t, seen, hI⟩ := h.oneWriter.1.inv
  exact oneWriterB_sound hI.mem.off hb

theorem calm_sound {env : Env} (s : Sys) (σ : Spec) (act : Act) (h : Run env Calm s σ) (hb : calmB s act = true) : Calm s act := by
  obtain ⟨t, seen, hI⟩ := h.inv
  exact calmB_sound hI.mem.off hb

/-- An update or insert of `key` by allocator `a` without interruption; `n` steps of `prepareUpdate`. -/
def putActs (a : Nat) (key : Key) (value : Word) (n : Nat) : List Act :=
  [.begin a (.update key), .arm a] ++ List.replicate n (.run a) ++ [.publish a value, .tail a]

/-- A delete of `key` by allocator `a` without interruption; `n` steps of `prepare`. -/
def delActs (a : Nat) (key : Key) (n : Nat) : List Act :=
  [.begin a (.delete key), .arm a] ++ List.replicate n (.run a) ++ [.publish a 0, .tail a]

/-! ## The tree used in the examples: the keys "apple", "april", "bob", "bar" -/

/-- The keys of the examples: "apple", "april", "bob", "bar". -/
def demoKeys : List Key := [[97, 112, 112, 108, 101], [97, 112, 114, 105, 108], [98, 111, 98], [98, 97, 114]]

theorem demoKeys_good : goodKeys demoKeys = true := by decide +kernel

def demoEnv : Env := Env.ofList demoKeys demoKeys_good

/-- The four keys are inserted, then "bob" is deleted, and "april" gets a new value. -/
def demoActs : List Act :=
  [.block] ++ putActs 0 [97, 112, 112, 108, 101] 0 2 ++ putActs 1 [97, 112, 114, 105, 108] 1 2 ++ putActs 0 [98, 111, 98] 2 6 ++
    putActs 0 [98, 97, 114] 3 6 ++ delActs 1 [98, 111, 98] 11 ++ putActs 0 [97, 112, 114, 105, 108] 5 10

end Radix
