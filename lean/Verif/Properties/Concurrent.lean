import Verif.Properties.Abort
import Verif.Sys.Exec
import Verif.Sys.Calls
/-!
# Properties C09, C10, C11: interleaved operations, panics, retries
-/
set_option autoImplicit false
namespace Radix

/-! ## C09: interleaved operations behave like atomic map operations -/

/-- The full statement of C09 for the contents: after any execution respecting the contract, `Lookup` reads the map obtained by
applying the successful `Finalize` calls, in the order of their publishing steps. -/
def C09_statement : Prop :=
  ∀ (env : Env) (s : Sys) (σ : Spec), Run env (fun s act => ∀ a key, act = .begin a (.lookup key) → 0 < s.st.nblocks) s σ →
    ∀ key, key ≠ [] → content env.fetch s.st key = σ.map key

/-- The keys "aaa", "aab", "ab", "b", "c", "ac", "aac". -/
def raceKeys : List Key := [[97, 97, 97], [97, 97, 98], [97, 98], [98], [99], [97, 99], [97, 97, 99]]

theorem raceKeys_good : goodKeys raceKeys = true := by decide +kernel

/-- "aaa", "aab", "ab", "b" are stored.  Allocator 1 prepares an insert of "c" into the root.  Allocator 2, inserting "aac", has read the
(odd) generation of the root.  Allocator 1 publishes a copy of the root, but has not unlocked the old one yet.  Allocator 3 inserts "ac",
which replaces node "a".  Allocator 2 goes on from the old root to the old node "a" to node "aa" and checks that the generations it
has read are unchanged, publishes its change in the old node "a", and reports success. -/
def raceActs : List Act :=
  [.block] ++ putActs 0 [97, 97, 97] 0 2 ++ putActs 0 [97, 97, 98] 1 2 ++ putActs 0 [97, 98] 2 6 ++ putActs 0 [98] 3 6 ++
  [.begin 1 (.update [99]), .arm 1] ++ List.replicate 6 (.run 1) ++
  [.begin 2 (.update [97, 97, 99]), .arm 2] ++ List.replicate 5 (.run 2) ++
  [.publish 1 4] ++
  [.begin 3 (.update [97, 99]), .arm 3] ++ List.replicate 10 (.run 3) ++ [.publish 3 5, .tail 3] ++
  List.replicate 9 (.run 2) ++ [.publish 2 6, .tail 2, .tail 1]

/-- C09 does not hold: three concurrent inserts can lose one of them, although its `Finalize` returned true. -/
theorem C09_does_not_hold : ¬ C09_statement := by
  intro hall
  obtain ⟨s, σ, h1, h2⟩ := Run.ofCheck (h := raceKeys_good)
    (G := fun s act => ∀ a key, act = .begin a (.lookup key) → 0 < s.st.nblocks)
    (g := fun _ act => match act with | .begin _ (.lookup _) => false | _ => true)
    (by
      intro s σ act _ hg a key e
      subst e
      cases hg)
    (n := 4) (acts := raceActs)
    (check := fun s σ => decide (σ.map [97, 97, 99] = some 6) && decide (search s.st [97, 97, 99] = .ok none)) (by decide +kernel)
  simp only [Bool.and_eq_true, decide_eq_true_eq] at h2
  have := hall _ s σ h1 [97, 97, 99] (by decide)
  unfold content at this
  rw [h2.1, h2.2] at this
  cases this

/-- C09, for executions in which the races listed at `Calm` do not show: any number of operations, prepared, finalized and aborted in any
order, interleaved step by step; `Finalize` may be interrupted between building the new nodes, publishing them (`commit`) and the rest, or not
(`publish`: building and publishing without interruption).

The publishing step of a `Finalize` that returns true changes the content, as one atomic update or removal of its own key; if it returns
false, nothing changes; no other step of any operation changes the content.  Content is what `Lookup` reads. -/
theorem C09_atomic_effects_partial {env : Env} {s s' : Sys} {σ : Spec} {act : Act} {ev : Ev} (h : Run env Calm s σ) (hall : env.Allowed s act)
    (hcalm : Calm s act) (he : exec env.fetch s act = some (.ok (s', ev))) {k : Key} (hk : k ≠ []) :
    match act with
    | .publish a value =>
      (∃ found op b tl, s.proc a = .upd (.held found op) ∧ s'.proc a = .upd (.tail b tl) ∧
        content env.fetch s'.st k = if b = true ∧ k = op.key then some (trunc55 value) else content env.fetch s.st k) ∨
      (∃ cur b tl, s.proc a = .del (.held cur) ∧ s'.proc a = .del (.tail b tl) ∧
        content env.fetch s'.st k = (if b = true ∧ k = cur.key then none else content env.fetch s.st k) ∧
        (b = true → content env.fetch s.st cur.key ≠ none))
    | .commit a =>
      (∃ op value cm b tl, s.proc a = .updB op value cm ∧ s'.proc a = .upd (.tail b tl) ∧
        content env.fetch s'.st k = if b = true ∧ k = op.key then some (trunc55 value) else content env.fetch s.st k) ∨
      (∃ cur cm b tl, s.proc a = .delB cur cm ∧ s'.proc a = .del (.tail b tl) ∧
        content env.fetch s'.st k = (if b = true ∧ k = cur.key then none else content env.fetch s.st k) ∧
        (b = true → content env.fetch s.st cur.key ≠ none))
    | _ => content env.fetch s'.st k = content env.fetch s.st k := by
  have h' : Run env Calm s' (σ.next ev) := .step h hall hcalm he
  obtain ⟨t, seen, hI⟩ := h.inv
  obtain ⟨t', seen', hI'⟩ := h'.inv
  have hc := hI.contents hk
  have hc' := hI'.contents hk
  rw [hc, hc']
  cases act with
  | publish a value =>
    simp only [exec] at he
    split at he
    · rename_i found op hp
      left
      simp only [Option.some.injEq] at he
      cases hpub : publishU s.st a op (env.fetch op.value) (decide (env.fetch op.value = op.key)) value with
      | error e => rw [hpub] at he; cases he
      | ok r =>
        obtain ⟨b, tl, st'⟩ := r
        rw [hpub] at he
        simp only [bind, Except.bind, pure, Except.pure, Except.ok.injEq, Prod.mk.injEq] at he
        obtain ⟨rfl, rfl⟩ := he
        refine ⟨found, op, b, tl, hp, by simp [Sys.set], ?_⟩
        cases b with
        | false => simp [Spec.next]
        | true => simp [Spec.next, Spec.change, upd]
    · rename_i cur hp
      right
      simp only [Option.some.injEq] at he
      rcases publishD_inv hI hp hall hcalm with herr | ⟨b, tl, st', g1, _, g3, _⟩
      · rw [herr] at he; cases he
      · rw [g1] at he
        simp only [bind, Except.bind, pure, Except.pure, Except.ok.injEq, Prod.mk.injEq] at he
        obtain ⟨rfl, rfl⟩ := he
        refine ⟨cur, b, tl, hp, by simp [Sys.set], ?_, ?_⟩
        · cases b with
          | false => simp [Spec.next]
          | true => simp [Spec.next, Spec.change, upd]
        · intro hb
          have hne := hI.mem.content.some_iff.2 (g3 hb).1
          have : cur.key ≠ [] := by
            obtain ⟨v, hv⟩ := (g3 hb).1
            exact env.ne (hI.has hv).1
          rw [hI.contents this]
          exact hne
    · cases he
  | commit a =>
    simp only [exec] at he
    split at he
    · rename_i op value cm hp
      left
      cases he
      refine ⟨op, value, cm, _, _, hp, by simp only [Sys.set, upd_same]; rfl, ?_⟩
      cases (s.st.commit cm).1 with
      | false => simp [Spec.next]
      | true => simp [Spec.next, Spec.change, upd]
    · rename_i cur cm hp
      right
      obtain ⟨b, tl, st', g1, _, g3, _⟩ := commitD_inv hI hp hcalm
      rw [g1] at he
      cases he
      refine ⟨cur, cm, b, tl, hp, by simp [Sys.set], ?_, ?_⟩
      · cases b with
        | false => simp [Spec.next]
        | true => simp [Spec.next, Spec.change, upd]
      · intro hb
        have hne := hI.mem.content.some_iff.2 (g3 hb).1
        have : cur.key ≠ [] := by
          obtain ⟨v, hv⟩ := (g3 hb).1
          exact env.ne (hI.has hv).1
        rw [hI.contents this]
        exact hne
    · cases he
  | slip a => cases (exec_slip_ok he).1; rfl
  | unlock a => cases (exec_unlock_ok he).1; rfl
  | quit a => cases (exec_quit_ok he).1; rfl
  | _ =>
    have : ev = .none ∨ ∃ a c, ev = .begun a c := by
      rcases exec_shape he with ⟨_, _, rfl⟩ | ⟨a, p', _, ⟨rfl, _⟩ | ⟨c, rfl, _⟩ | ⟨h1, h2, _⟩⟩
      · exact .inl rfl
      · exact .inl rfl
      · exact .inr ⟨_, _, rfl⟩
      · exfalso
        simp only [exec] at he
        (repeat' split at he) <;> first
          | (cases he; done)
          | (simp only [Option.some.injEq, bind, Except.bind, pure, Except.pure] at he
             (repeat' split at he) <;> first | (cases he; done) | (cases he; rcases h1 with ⟨_, _, h1⟩ | ⟨_, h1⟩ <;> cases h1))
    rcases this with rfl | ⟨a, c, rfl⟩ <;> rfl

/-- There are calm executions in which operations overlap: the updates of "aaa" and "baa" are both prepared; that of "aaa" builds
its new nodes; then that of "baa" is published, and that of "aaa", before either unlocks. -/
example : ∃ s σ, Run (Env.ofList deepKeys deepKeys_good) Calm s σ ∧ (∃ tl, s.proc 0 = .upd (.tail true tl)) ∧ (∃ tl, s.proc 1 = .upd (.tail true tl)) ∧
    content (Env.ofList deepKeys deepKeys_good).fetch s.st [97, 97, 97] = some 6 ∧
    content (Env.ofList deepKeys deepKeys_good).fetch s.st [98, 97, 97] = some 9 := by
  obtain ⟨s, σ, h1, h2⟩ := Run.ofCheck (h := deepKeys_good) (G := Calm) calm_sound (n := 2)
    (acts := deepActs ++ [.begin 0 (.update [97, 97, 97]), .arm 0] ++ List.replicate 14 (.run 0) ++
      [.begin 1 (.update [98, 97, 97]), .arm 1] ++ List.replicate 14 (.run 1) ++ [.build 0 6, .publish 1 9, .commit 0])
    (check := fun s _ => (match s.proc 0 with | .upd (.tail true _) => true | _ => false) &&
      (match s.proc 1 with | .upd (.tail true _) => true | _ => false) &&
      decide (content (Env.ofList deepKeys deepKeys_good).fetch s.st [97, 97, 97] = some 6) &&
      decide (content (Env.ofList deepKeys deepKeys_good).fetch s.st [98, 97, 97] = some 9)) (by decide +kernel)
  simp only [Bool.and_eq_true, decide_eq_true_eq] at h2
  obtain ⟨⟨⟨h3, h4⟩, h5⟩, h6⟩ := h2
  refine ⟨s, σ, h1, ?_, ?_, h5, h6⟩
  · split at h3
    · exact ⟨_, by assumption⟩
    · cases h3
  · split at h4
    · exact ⟨_, by assumption⟩
    · cases h4

/-- Another one, with all kinds of steps: the update of "baa" meets a lock held for a moment by that of "aaa" and starts again; this is
finalized, releasing its locks one by one; then the update of "baa" is aborted and has released one of its two locks. -/
example : ∃ s σ, Run (Env.ofList deepKeys deepKeys_good) Calm s σ ∧ s.proc 0 = .idle ∧
    (∃ tl n, s.proc 1 = .upd (.tail false tl) ∧ tl.unl = .words [n] ∧ s.st.gen n % 2 = 1) ∧
    σ.map [97, 97, 97] = some 6 ∧ σ.map [98, 97, 97] = some 3 := by
  obtain ⟨s, σ, h1, h2⟩ := Run.ofCheck (h := deepKeys_good) (G := Calm) calm_sound (n := 2)
    (acts := deepActs ++ [.begin 0 (.update [97, 97, 97]), .arm 0] ++ List.replicate 13 (.run 0) ++
      [.begin 1 (.update [98, 97, 97]), .arm 1] ++ List.replicate 13 (.run 1) ++ [.slip 1, .run 0, .publish 0 6, .unlock 0, .tail 0] ++
      List.replicate 14 (.run 1) ++ [.quit 1, .unlock 1])
    (check := fun s σ => (s.proc 0).isIdle &&
      (match s.proc 1 with | .upd (.tail false tl) => (match tl.unl with | .words [n] => decide (s.st.gen n % 2 = 1) | _ => false) | _ => false) &&
      decide (σ.map [97, 97, 97] = some 6) && decide (σ.map [98, 97, 97] = some 3)) (by decide +kernel)
  simp only [Bool.and_eq_true, decide_eq_true_eq] at h2
  obtain ⟨⟨⟨h3, h4⟩, h5⟩, h6⟩ := h2
  refine ⟨s, σ, h1, Proc.idle_of h3, ?_, h5, h6⟩
  split at h4
  · rename_i tl hp
    split at h4
    · exact ⟨tl, _, hp, by assumption, of_decide_eq_true h4⟩
    · cases h4
  · cases h4

/-- C09, for calls that do not overlap, while any number of operations may be prepared at the same time and finalized or aborted in any order
(and lookups run at any time): `Lookup` reads the map obtained from the successful `Finalize` calls.  Excepted is finalizing a delete that was
prepared in a 256-slot node, without lock, after this node was replaced by a copy (and aborting a merge with the root, C08). -/
theorem C09_interleaved_calls_partial {env : Env} {s : Sys} {σ : Spec} (h : Run env Calls s σ) {k : Key} (hk : k ≠ []) :
    content env.fetch s.st k = σ.map k := by
  obtain ⟨t, seen, hI⟩ := h.calls.1.inv
  exact hI.contents hk

/-- A condition that implies `Calls`, decided for allocators in use. -/
def callsB (s : Sys) (act : Act) : Bool :=
  (match act.who with
   | some a => (List.range s.st.nalloc).all fun b => decide (a = b) || !(s.proc b).busy
   | none => true) &&
  match act with
  | .begin _ (.lookup _) => decide (0 < s.st.nblocks)
  | .begin _ .walk => decide (0 < s.st.nblocks)
  | .publish a _ =>
    match s.proc a with
    | .del (.held cur) => decide (cur.op.kind ≠ .deleteLeaf256)
    | _ => true
  | .commit a =>
    match s.proc a with
    | .delB cur _ => decide (cur.op.kind ≠ .deleteLeaf256)
    | _ => true
  | .quit a | .abort a =>
    match s.proc a with
    | .del (.held cur) => decide (cur.op.kind ≠ .replaceNodeWithNode)
    | _ => true
  | _ => true

theorem calls_sound {env : Env} (s : Sys) (σ : Spec) (act : Act) (h : Run env Calls s σ) (hb : callsB s act = true) : Calls s act := by
  obtain ⟨t, seen, hI⟩ := h.calls.1.inv
  unfold callsB at hb
  rw [Bool.and_eq_true] at hb
  constructor
  · intro a b h1 h2 _
    rw [h1] at hb
    by_cases hlt : b < s.st.nalloc
    · have := List.all_eq_true.1 hb.1 b (List.mem_range.2 hlt)
      simpa [h2] using this
    · rw [hI.mem.off b (by omega)]; rfl
  · have h2 := hb.2
    split <;> simp only at h2
    · exact of_decide_eq_true h2
    · exact of_decide_eq_true h2
    · intro cur hp hk _
      rw [hp] at h2
      exact absurd hk (of_decide_eq_true h2)
    · intro cur cm hp hk _
      rw [hp] at h2
      exact absurd hk (of_decide_eq_true h2)
    · intro cur hp hk _
      rw [hp] at h2
      exact absurd hk (of_decide_eq_true h2)
    · intro cur hp hk _
      rw [hp] at h2
      exact absurd hk (of_decide_eq_true h2)
    · trivial

/-- Such an execution: the updates of "aaa" and "baa" are both prepared, then finalized in the same order. -/
example : ∃ s σ, Run (Env.ofList deepKeys deepKeys_good) Calls s σ ∧ σ.map [97, 97, 97] = some 6 ∧ σ.map [98, 97, 97] = some 9 := by
  obtain ⟨s, σ, h1, h2⟩ := Run.ofCheck (h := deepKeys_good) (G := Calls) calls_sound (n := 2)
    (acts := deepActs ++ [.begin 0 (.update [97, 97, 97]), .arm 0] ++ List.replicate 14 (.run 0) ++
      [.begin 1 (.update [98, 97, 97]), .arm 1] ++ List.replicate 14 (.run 1) ++ [.publish 0 6, .tail 0, .publish 1 9, .tail 1])
    (check := fun _ σ => decide (σ.map [97, 97, 97] = some 6) && decide (σ.map [98, 97, 97] = some 9)) (by decide +kernel)
  simp only [Bool.and_eq_true, decide_eq_true_eq] at h2
  exact ⟨s, σ, h1, h2.1, h2.2⟩

/-- C09: the answers.  While an update is prepared: if it reported "not found", the key is not stored (now); if it reported a candidate
and the key is stored (now), the candidate is its value. -/
theorem C09_update_answers_partial {env : Env} {s : Sys} {σ : Spec} (h : Run env Calm s σ) {a : Nat} {key : Key} {found : Bool} {op : UpdOp}
    (hc : σ.call a = .update key) (hp : s.proc a = .upd (.held found op)) (hk : key ≠ []) :
    (found = false → content env.fetch s.st key = none) ∧
    (found = true → ∀ v, content env.fetch s.st key = some v → op.value = v) := by
  obtain ⟨t, seen, hI⟩ := h.inv
  rw [hI.contents hk]
  have := C04_prepare_update_classifies_concurrent_partial h hc hp
  exact ⟨this.1, fun h1 => (this.2 h1).2⟩

/-- C09: the answers of deletes.  If `PrepareDelete` reported that there is nothing, then the key was not stored at some moment since it
began.  A candidate was stored at some moment since then, and it was the value of the key if that was stored all the time. -/
theorem C09_delete_answers_partial {env : Env} {s : Sys} {σ : Spec} (h : Run env Calm s σ) {a : Nat} {key : Key} (hc : σ.call a = .delete key) :
    (∀ k, s.proc a = .del (.miss k) → ∃ M ∈ σ.window a, M key = none) ∧
    (∀ cur, s.proc a = .del (.held cur) → ∃ M ∈ σ.window a, ∃ k', M k' = some cur.op.value ∧ env.fetch cur.op.value = k' ∧
      ((∀ M ∈ σ.window a, M key ≠ none) → k' = key)) := by
  obtain ⟨t, seen, hI⟩ := h.inv
  have hP := hI.proc a
  constructor
  · intro k hp
    have hkey : k = key := by
      have := h.call a (.delete k) (by rw [hp]; rfl)
      rw [hc] at this
      injection this with this; exact this.symm
    subst hkey
    rw [hp] at hP
    exact hI.absent (by rw [hp]; rfl) hP
  · intro cur hp
    have hkey : cur.key = key := by
      have := h.call a (.delete cur.key) (by rw [hp]; rfl)
      rw [hc] at this
      injection this with this; exact this.symm
    subst hkey
    rw [hp] at hP
    exact hI.candK (by rw [hp]; rfl) hP.1

/-! ## C10: no panics -/

/-- The full statement of C10, already for operations one after the other: the only failure is running out of memory blocks. -/
def C10_statement : Prop :=
  ∀ (env : Env) (s : Sys) (σ : Spec), Run env Serial s σ → ∀ act e, env.Allowed s act → Serial s act →
    exec env.fetch s act = some (.error e) → e = .noBlocks

/-- Two keys of 2041 bytes that differ in the last one. -/
def long0 : Key := List.replicate 2040 97 ++ [0]
def long1 : Key := List.replicate 2040 97 ++ [1]
def longKeys : List Key := [long0, long1]

theorem longKeys_good : goodKeys longKeys = true := by decide +kernel

/-- Insert both keys and delete the first one, up to the publishing step. -/
def longActs : List Act :=
  [.block] ++ putActs 0 long0 0 2 ++ putActs 0 long1 1 2 ++ [.begin 0 (.delete long0), .arm 0] ++ List.replicate 7 (.run 0) ++ [.publish 0 0]

/-- C10 does not hold: deleting one of two keys with a common prefix of 2040 bytes panics, because `recycle` accepts nodes of 258 slots
(allocator.go:55: `slots > len(a.recycler)`) for which it has no list. -/
theorem C10_does_not_hold : ¬ C10_statement := by
  intro hall
  obtain ⟨s, σ, h1, h2⟩ := Run.ofCheck (h := longKeys_good) (G := Serial) serial_sound (n := 1) (acts := longActs)
    (check := fun s _ => match exec (fun v => longKeys.getD (v.toNat % longKeys.length) []) s (.tail 0) with
      | some (.error .index) => true
      | _ => false) (by decide +kernel)
  split at h2
  · rename_i he
    cases hall _ s σ h1 (.tail 0) .index trivial trivial he
  · cases h2

/-- C10, with the exact list of failures: in calm executions with any number of operations, a step of an operation that is possible panics
only if
* no memory block is left,
* `Finalize` recycles a node of exactly 258 slots, after its change has taken effect, or
* a merge of the root with its child is aborted (C08). -/
theorem C10_panics_partial {env : Env} {s : Sys} {σ : Spec} (h : Run env Calm s σ) {act : Act} {e : Panic} (hall : env.Allowed s act)
    (hcalm : Calm s act) (he : exec env.fetch s act = some (.error e)) :
    ((act = .block ∨ (∃ a value, act = .publish a value) ∨ ∃ a value, act = .build a value) ∧ e = .noBlocks) ∨
    (∃ a, act = .tail a ∧ e = .index ∧ ∃ b tl n, (s.proc a = .upd (.tail b tl) ∨ s.proc a = .del (.tail b tl)) ∧ tl.free = some (n, 258)) ∨
    (∃ a, act = .abort a ∧ e = .unlock ∧ ∃ cur, s.proc a = .del (.held cur) ∧ cur.op.kind = .replaceNodeWithNode ∧ cur.op.parent = 0) := by
  obtain ⟨t, seen, hI⟩ := h.inv
  rcases exec_inv hI hall hcalm he with ⟨s', ev, _, _, h1, _⟩ | ⟨e', h1, h2⟩
  · cases h1
  · injection h1 with h1
    subst h1
    cases act with
    | publish a v => exact .inl ⟨.inr (.inl ⟨_, _, rfl⟩), h2⟩
    | build a v => exact .inl ⟨.inr (.inr ⟨_, _, rfl⟩), h2⟩
    | block => exact .inl ⟨.inl rfl, h2⟩
    | tail a =>
      obtain ⟨h3, tl, n, h4, h5⟩ := h2
      refine .inr (.inl ⟨a, rfl, h3, ?_⟩)
      unfold Proc.tail? at h4
      split at h4
      · cases h4; exact ⟨_, _, n, .inl (by assumption), h5⟩
      · cases h4; exact ⟨_, _, n, .inr (by assumption), h5⟩
      · cases h4
    | abort a => exact .inr (.inr ⟨a, rfl, h2.1, h2.2⟩)
    | _ => exact absurd h2 id

/-! ## C11: no retries without competition -/

/-- The steps of `PrepareUpdate(key)` by allocator `a` from its call on, the first `n` after `startOp`. -/
def prepareActs (a : Nat) (c : Call) (n : Nat) : List Act := [.begin a c, .arm a] ++ List.replicate n (.run a)

/-- `Finalize` of an update, with nothing else going on, returns true, unless it panics for the reasons of C10. -/
theorem finalizeU_alone {env : Env} {s : Sys} {σ : Spec} (h : Run env Calm s σ) (hS : SInv s) {a : Nat} {found : Bool} {op : UpdOp}
    (hp : s.proc a = .upd (.held found op)) {value : Word} (hv : env.fetch (trunc55 value) = op.key) :
    (∃ st', finalizeU s.st a op (env.fetch op.value) (decide (env.fetch op.value = op.key)) value = .ok (true, st')) ∨
    finalizeU s.st a op (env.fetch op.value) (decide (env.fetch op.value = op.key)) value = .error .noBlocks ∨
    (finalizeU s.st a op (env.fetch op.value) (decide (env.fetch op.value = op.key)) value = .error .index ∧
      ∃ tl st' n, publishU s.st a op (env.fetch op.value) (decide (env.fetch op.value = op.key)) value = .ok (true, tl, st') ∧
        tl.free = some (n, 258)) := by
  obtain ⟨t, seen, hI⟩ := h.inv
  have hall : env.Allowed s (.publish a value) := by simpa [Env.Allowed, hp] using hv
  unfold finalizeU
  rcases publishU_inv hI hp hall with herr | ⟨b, tl, st', g1, g2, t', seen', _, hI'⟩
  · right; left
    rw [herr]; rfl
  · have hb : b = true := by
      cases hb : b with
      | true => rfl
      | false =>
        exfalso
        obtain ⟨h1, h2⟩ := g2 hb
        have := hS.now a
        rw [hp] at this
        exact h2 (this (by rw [h1]; rfl) (by rw [h1]; rfl)).1
    subst hb
    rw [g1]
    simp only [bind, Except.bind, pure, Except.pure]
    cases ht : st'.runTail a tl with
    | ok st2 => exact .inl ⟨st2, rfl⟩
    | error e =>
      right; right
      have he : exec env.fetch (s.set a st' (.upd (.tail true tl))) (.tail a) = some (.error e) := by
        simp [exec, Sys.set, ht, bind, Except.bind]
      have h2 : Run env Calm (s.set a st' (.upd (.tail true tl))) (σ.next (.put op.key (trunc55 value))) := by
        refine .step h hall (by simp [Calm, hp]) ?_
        simp [exec, hp, g1, bind, Except.bind, pure, Except.pure]
      rcases C10_panics_partial h2 (act := .tail a) trivial trivial he with ⟨⟨⟨⟩⟩ | ⟨_, _, ⟨⟩⟩ | ⟨_, _, ⟨⟩⟩, _⟩ | ⟨a', e1, e2, b2, tl2, n, h3, h4⟩ | ⟨_, ⟨⟩, _⟩
      cases e1
      refine ⟨by rw [e2], tl, st', n, rfl, ?_⟩
      rcases h3 with h3 | h3 <;> simp [Sys.set] at h3
      rw [h3.2]; exact h4

/-- As `finalizeU_alone`, for deletes. -/
theorem finalizeD_alone {env : Env} {s : Sys} {σ : Spec} (h : Run env Calm s σ) (hS : SInv s) {a : Nat} {cur : DelCur}
    (hp : s.proc a = .del (.held cur)) (hv : env.fetch cur.op.value = cur.key) :
    (∃ st', finalizeD s.st a cur.op = .ok (true, st')) ∨
    finalizeD s.st a cur.op = .error .noBlocks ∨
    (finalizeD s.st a cur.op = .error .index ∧ ∃ tl st' n, publishD s.st a cur.op = .ok (true, tl, st') ∧ tl.free = some (n, 258)) := by
  obtain ⟨t, seen, hI⟩ := h.inv
  have hall : env.Allowed s (.publish a 0) := by simpa [Env.Allowed, hp] using hv
  have hcalm : Calm s (.publish a 0) := SInv.calm (act := .publish a 0) hI hS trivial
  unfold finalizeD
  rcases publishD_inv hI hp hall hcalm with herr | ⟨b, tl, st', g1, g2, _, t', seen', _, hI'⟩
  · right; left
    rw [herr]; rfl
  · have hb : b = true := by
      cases hb : b with
      | true => rfl
      | false =>
        exfalso
        obtain ⟨h1, h2⟩ := g2 hb
        have := hS.now a
        rw [hp] at this
        exact h2 (this h1).1.1
    subst hb
    rw [g1]
    simp only [bind, Except.bind, pure, Except.pure]
    cases ht : st'.runTail a tl with
    | ok st2 => exact .inl ⟨st2, rfl⟩
    | error e =>
      right; right
      have he : exec env.fetch (s.set a st' (.del (.tail true tl))) (.tail a) = some (.error e) := by
        simp [exec, Sys.set, ht, bind, Except.bind]
      have h2 : Run env Calm (s.set a st' (.del (.tail true tl))) (σ.next (.del cur.key)) := by
        refine .step h hall hcalm ?_
        simp [exec, hp, g1, bind, Except.bind, pure, Except.pure]
      rcases C10_panics_partial h2 (act := .tail a) trivial trivial he with ⟨⟨⟨⟩⟩ | ⟨_, _, ⟨⟩⟩ | ⟨_, _, ⟨⟩⟩, _⟩ | ⟨a', e1, e2, b2, tl2, n, h3, h4⟩ | ⟨_, ⟨⟩, _⟩
      cases e1
      refine ⟨by rw [e2], tl, st', n, rfl, ?_⟩
      rcases h3 with h3 | h3 <;> simp [Sys.set] at h3
      rw [h3.2]; exact h4


/-- The beginning of an operation with no update or delete going on. -/
theorem Run.start {env : Env} {s : Sys} {σ : Spec} (h : Run env Calm s σ) {a : Nat} (hidle : s.proc a = .idle) (hr : ∀ b, (s.proc b).writer = false)
    (ha : a < s.st.nalloc) {c : Call} (hall : env.Allowed s (.begin a c)) (hw : OneWriter s (.begin a c)) :
    ∃ s1 σ1, (∀ n, execs env.fetch s (prepareActs a c n) = execs env.fetch s1 (List.replicate n (.run a))) ∧ Run env Calm s1 σ1 ∧ SInv s1 ∧
      s1.proc a = c.start := by
  have e1 : exec env.fetch s (.begin a c) = some (.ok (s.set a s.st (.arm s.st.epoch c), .none)) := by
    simp [exec, hidle, ha]
  obtain ⟨h1, S1⟩ := h.stepOne ⟨fun x _ hx _ => (by rw [hr x] at hx; cases hx), fun x => .reader (hr x)⟩ hall hw e1
  have e2 : exec env.fetch (s.set a s.st (.arm s.st.epoch c)) (.arm a) =
      some (.ok ((s.set a s.st (.arm s.st.epoch c)).set a { s.st with resv := upd s.st.resv a s.st.epoch } c.start, .begun a c)) := by
    simp [exec, Sys.set]
  obtain ⟨h2, S2⟩ := h1.stepOne S1 (act := .arm a) trivial trivial e2
  refine ⟨_, _, fun n => ?_, h2, S2, by simp [Sys.set]⟩
  unfold prepareActs
  rw [List.cons_append, List.cons_append, List.nil_append, execs_one e1, execs_one e2]

/-- C11: if no update or delete is under way (lookups and walks may be), `PrepareUpdate(key)` returns after a bounded number of steps, without
starting again, and `Finalize` then returns true (or panics for one of the reasons of C10).  Operations may have overlapped before. -/
theorem C11_update_without_competition_partial {env : Env} {s : Sys} {σ : Spec} (h : Run env Calm s σ) {a : Nat} (hidle : s.proc a = .idle)
    (hr : ∀ b, (s.proc b).writer = false) (ha : a < s.st.nalloc) {key : Key} (hk : env.keys key) :
    ∃ n s' found op, n ≤ 8 * key.length + 9 ∧ execs env.fetch s (prepareActs a (.update key) n) = some s' ∧
      s'.proc a = .upd (.held found op) ∧ op.key = key ∧
      (∀ i, 0 < i → i ≤ n → ∃ s2, execs env.fetch s (prepareActs a (.update key) i) = some s2 ∧ s2.proc a ≠ .upd (.start key)) ∧
      ∀ value, env.fetch (trunc55 value) = key →
        (∃ st', finalizeU s'.st a op (env.fetch op.value) (decide (env.fetch op.value = key)) value = .ok (true, st')) ∨
        finalizeU s'.st a op (env.fetch op.value) (decide (env.fetch op.value = key)) value = .error .noBlocks ∨
        (finalizeU s'.st a op (env.fetch op.value) (decide (env.fetch op.value = key)) value = .error .index ∧
          ∃ tl st' n, publishU s'.st a op (env.fetch op.value) (decide (env.fetch op.value = key)) value = .ok (true, tl, st') ∧
            tl.free = some (n, 258)) := by
  obtain ⟨s1, σ1, hx, h2, S2, hp⟩ := h.start hidle hr ha (c := .update key) hk hr
  obtain ⟨n, s', g1, g2, g3, g4, ⟨found, op, g5, g6⟩, _, g7⟩ := Run.prepareU (a := a) (key := key) _ h2 S2 hp rfl (Nat.le_refl _)
  refine ⟨n, s', found, op, g1, by rw [hx]; exact g2, g5, g6, ?_, ?_⟩
  · intro i i1 i2
    obtain ⟨s2, j1, j2⟩ := g7 i i1 i2
    exact ⟨s2, by rw [hx]; exact j1, j2 key⟩
  · intro value hv
    subst g6
    exact finalizeU_alone g3 g4 g5 hv

/-- C11 for deletes: `PrepareDelete(key)` finds its answer after a bounded number of steps, without starting again, and `Finalize`
returns true (or panics for one of the reasons of C10). -/
theorem C11_delete_without_competition_partial {env : Env} {s : Sys} {σ : Spec} (h : Run env Calm s σ) {a : Nat} (hidle : s.proc a = .idle)
    (hr : ∀ b, (s.proc b).writer = false) (ha : a < s.st.nalloc) {key : Key} (hk : key ≠ []) :
    ∃ n s', n ≤ 8 * key.length + 9 ∧ execs env.fetch s (prepareActs a (.delete key) n) = some s' ∧
      (∀ i, 0 < i → i ≤ n → ∃ s2, execs env.fetch s (prepareActs a (.delete key) i) = some s2 ∧ s2.proc a ≠ .del (.start key)) ∧
      (s'.proc a = .del (.miss key) ∨ ∃ cur, s'.proc a = .del (.held cur) ∧ cur.key = key ∧
        (env.fetch cur.op.value = key →
          (∃ st', finalizeD s'.st a cur.op = .ok (true, st')) ∨
          finalizeD s'.st a cur.op = .error .noBlocks ∨
          (finalizeD s'.st a cur.op = .error .index ∧
            ∃ tl st' n, publishD s'.st a cur.op = .ok (true, tl, st') ∧ tl.free = some (n, 258)))) := by
  obtain ⟨s1, σ1, hx, h2, S2, hp⟩ := h.start hidle hr ha (c := .delete key) hk hr
  obtain ⟨n, s', g1, g2, g3, g4, g5, _, g7⟩ := Run.prepareD (a := a) (key := key) _ h2 S2 hp rfl (Nat.le_refl _)
  refine ⟨n, s', g1, by rw [hx]; exact g2, ?_, ?_⟩
  · intro i i1 i2
    obtain ⟨s2, j1, j2⟩ := g7 i i1 i2
    exact ⟨s2, by rw [hx]; exact j1, j2 key⟩
  · rcases g5 with ⟨cur, j1, j2⟩ | j1
    · subst j2
      exact .inr ⟨cur, j1, rfl, fun hv => finalizeD_alone g3 g4 j1 hv⟩
    · exact .inl j1

/-- The hypotheses are met, for example, after the four keys were stored and one was deleted, for the keys "april" (stored) and "bob"
(deleted), while allocator 0 is looking up "april". -/
example : ∃ s σ, Run demoEnv Calm s σ ∧ s.proc 1 = .idle ∧ (∀ b, (s.proc b).writer = false) ∧ (∃ ph, s.proc 0 = .rd ph) ∧ 1 < s.st.nalloc ∧
    demoEnv.keys [98, 111, 98] ∧
    content demoEnv.fetch s.st [97, 112, 114, 105, 108] = some 5 ∧ content demoEnv.fetch s.st [98, 111, 98] = none := by
  obtain ⟨s, σ, h1, h2⟩ := Run.ofCheck (h := demoKeys_good) (G := Calm) calm_sound (n := 2)
    (acts := demoActs ++ [.begin 0 (.lookup [97, 112, 114, 105, 108]), .arm 0, .run 0])
    (check := fun s _ => (match s.proc 0 with | .rd _ => true | _ => false) && (s.proc 1).isIdle && decide (s.st.nalloc = 2) &&
      decide (content demoEnv.fetch s.st [97, 112, 114, 105, 108] = some 5) && decide (content demoEnv.fetch s.st [98, 111, 98] = none))
    (by decide +kernel)
  simp only [Bool.and_eq_true, decide_eq_true_eq] at h2
  obtain ⟨⟨⟨⟨h3, h4⟩, h5⟩, h6⟩, h7⟩ := h2
  obtain ⟨t, seen, hI⟩ := h1.inv
  have e1 : s.proc 1 = .idle := by
    cases hp : s.proc 1 <;> rw [hp] at h4 <;> first | rfl | cases h4
  obtain ⟨ph, e0⟩ : ∃ ph, s.proc 0 = .rd ph := by
    split at h3
    · exact ⟨_, by assumption⟩
    · cases h3
  refine ⟨s, σ, h1, e1, ?_, ⟨ph, e0⟩, by omega, by simp [demoEnv, Env.ofList, demoKeys], h6, h7⟩
  intro b
  match b with
  | 0 => rw [e0]; rfl
  | 1 => rw [e1]; rfl
  | b + 2 => rw [hI.mem.off (b + 2) (by omega)]; rfl

end Radix
