import Verif.FineSpec
import Verif.Sys.FineMain
import Verif.Properties.Abort
import Verif.Properties.Concurrent
import Verif.Properties.Map
/-!
# C45: every access to shared memory as a step of its own

The other properties are about `Verif/Model/Sys.lean`, where reading a node or taking up to three locks is one step.  Here they are carried
over to `Verif/Model/Fine.lean`, where other goroutines may do anything between two accesses: between two loads of the words of a node, between
two compare-and-swaps of `lockNodes2` and `lockNodes3`, and between the additions that give locks back.
-/
set_option autoImplicit false
namespace Radix

section
variable {env : Env} {f : FSys} {s : Sys} {σ : Spec} {t : T} {seen : Nat → T → Prop}

theorem content_relock (fetch : Word → Key) (st : St) (L : Nat → Nat → Int) (r : Int) (k : Key) :
    content fetch (st.relock L r) k = content fetch st k := by
  unfold content
  rw [search_congr (st := st) (st' := st.relock L r) rfl rfl rfl]

/-- Only `commit` and `publish` change the map. -/
theorem quietEv {f' : FSys} {act : Act} {ev : Ev} (h1 : ∀ a v, act ≠ .publish a v) (h2 : ∀ a, act ≠ .commit a)
    (he : ((exec env.fetch f.sys act).map fun r => do
      let r ← r
      return ((⟨r.1, f.fine⟩ : FSys), r.2)) = some (.ok (f', ev))) : ev = .none ∨ ∃ b c, ev = .begun b c := by
  cases hx : exec env.fetch f.sys act with
  | none => rw [hx] at he; cases he
  | some x =>
    rw [hx] at he
    cases x with
    | error e => cases he
    | ok x =>
      cases he
      obtain ⟨s', ev⟩ := x
      cases act with
      | publish a v => exact absurd rfl (h1 a v)
      | commit a => exact absurd rfl (h2 a)
      | arm a =>
        simp only [exec] at hx
        split at hx
        · cases hx; exact .inr ⟨_, _, rfl⟩
        · cases hx
      | slip a => exact .inl (exec_slip_ok hx).1
      | unlock a => exact .inl (exec_unlock_ok hx).1
      | quit a => exact .inl (exec_quit_ok hx).1
      | _ =>
        simp only [exec] at hx
        repeat' split at hx
        all_goals first
          | (cases hx; done)
          | (cases hx; exact .inl rfl)
          | (injection hx with hx; obtain ⟨r, _, hx⟩ := bind_ok hx; cases hx; exact .inl rfl)

/-! ### From the relation between the two systems -/

theorem FRel.simulated (hF : FRel env Calm f s σ t seen) : Run env Calm s σ ∧ s.proc = f.sys.proc ∧
    f.sys.st = { s.st with locks := f.sys.st.locks, rootLock := f.sys.st.rootLock } ∧
    ∀ n, f.sys.st.gen n = s.st.gen n ∨ f.sys.st.gen n = s.st.gen n + 1 ∧ ∃ a x, x ∈ (f.fine a).temp ∧ sameLock x.1 n := by
  refine ⟨hF.run, hF.proc.symm, hF.st, fun n => ?_⟩
  rcases hF.locks.cases n with ⟨b, x, h1, h2, h3, _⟩ | ⟨h1, _⟩
  · exact .inr ⟨h3, b, x, h1, h2⟩
  · exact .inl h1

theorem FRel.contents (hF : FRel env Calm f s σ t seen) {k : Key} (hk : k ≠ []) : content env.fetch f.sys.st k = σ.map k := by
  rw [hF.st, content_relock]
  exact hF.inv.contents hk

theorem FRel.effects {f' : FSys} {s' : Sys} {t' : T} {seen' : Nat → T → Prop} {act : FAct} {ev : Ev} (hF : FRel env Calm f s σ t seen)
    (hF' : FRel env Calm f' s' (σ.next ev) t' seen') (hcalm : ∀ a, act = .commit a → Calm s (.commit a))
    (he : Radix.fexec env.fetch f act = some (.ok (f', ev))) {k : Key} (hk : k ≠ []) :
    match act with
    | .commit a =>
      (∃ op value cm b tl, f.sys.proc a = .updB op value cm ∧ f'.sys.proc a = .upd (.tail b tl) ∧
        content env.fetch f'.sys.st k = if b = true ∧ k = op.key then some (trunc55 value) else content env.fetch f.sys.st k) ∨
      (∃ cur cm b tl, f.sys.proc a = .delB cur cm ∧ f'.sys.proc a = .del (.tail b tl) ∧
        content env.fetch f'.sys.st k = (if b = true ∧ k = cur.key then none else content env.fetch f.sys.st k) ∧
        (b = true → content env.fetch f.sys.st cur.key ≠ none))
    | _ => content env.fetch f'.sys.st k = content env.fetch f.sys.st k := by
  by_cases hc : ∃ a, act = .commit a
  · obtain ⟨a, rfl⟩ := hc
    have e := exec_relock env.fetch s f.sys.st.locks f.sys.st.rootLock (act := .commit a) trivial
    rw [← hF.sys] at e
    simp only [Radix.fexec, FAct.act] at he
    rw [e] at he
    cases hx : exec env.fetch s (.commit a) with
    | none => rw [hx] at he; cases he
    | some x =>
      rw [hx] at he
      cases x with
      | error e' => cases he
      | ok x =>
        obtain ⟨s', ev'⟩ := x
        cases he
        have := C09_atomic_effects_partial (act := .commit a) hF.run trivial (hcalm a rfl) hx hk
        simp only at this ⊢
        rw [hF.proc, hF.st]
        simp only [content_relock, Sys.relock]
        exact this
  · have e : (σ.next ev).map k = σ.map k := by
      have hev : ev = .none ∨ ∃ b c, ev = .begun b c := by
        cases act with
        | commit a => exact absurd ⟨a, rfl⟩ hc
        | step a =>
          simp only [Radix.fexec] at he
          cases e : Radix.fstep env.fetch f a with
          | none => rw [e] at he; cases he
          | some x =>
            rw [e] at he
            cases x with
            | error e => cases he
            | ok x => cases he; exact .inl rfl
        | tail a =>
          simp only [Radix.fexec] at he
          split at he
          · exact quietEv (by simp) (by simp) he
          · cases he
        | _ =>
          simp only [Radix.fexec] at he
          exact quietEv (by simp [FAct.act]) (by simp [FAct.act]) he
      rcases hev with rfl | ⟨b, c, rfl⟩ <;> rfl
    have := hF.contents hk
    have h2 := hF'.contents hk
    rw [e, ← this] at h2
    cases act with
    | commit a => exact absurd ⟨a, rfl⟩ hc
    | _ => exact h2

theorem FRel.panics (hF : FRel env Calm f s σ t seen) {act : FAct} {e : Panic} (hall : env.Allowed f.sys act.act)
    (hcalm : Calm s act.act ∨ FCalm f act) (hG : (∀ a, act ≠ .step a) → Calm s act.act) (he : Radix.fexec env.fetch f act = some (.error e)) :
    ((act = .block ∨ ∃ a value, act = .build a value) ∧ e = .noBlocks) ∨
    (∃ a, act = .tail a ∧ e = .index ∧ ∃ b tl n, (f.sys.proc a = .upd (.tail b tl) ∨ f.sys.proc a = .del (.tail b tl)) ∧ tl.free = some (n, 258)) := by
  rcases hF.fexec hall hcalm hG he with ⟨_, _, _, _, _, e, _⟩ | ⟨e', h1, h2⟩
  · cases e
  · cases h1
    cases act with
    | build a v => exact .inl ⟨.inr ⟨_, _, rfl⟩, h2⟩
    | block => exact .inl ⟨.inl rfl, h2⟩
    | tail a =>
      obtain ⟨h3, tl, n, h4, h5⟩ := h2
      refine .inr ⟨a, rfl, h3, ?_⟩
      rw [hF.proc]
      cases hp : s.proc a with
      | upd ph =>
        rw [hp] at h4
        cases ph with
        | tail b tl' => cases h4; exact ⟨b, tl, n, .inl rfl, h5⟩
        | _ => cases h4
      | del ph =>
        rw [hp] at h4
        cases ph with
        | tail b tl' => cases h4; exact ⟨b, tl, n, .inr rfl, h5⟩
        | _ => cases h4
      | _ => rw [hp] at h4; cases h4
    | _ => exact h2.elim

/-- Allocator `a` holds the lock of node `n`: its operation is prepared or not yet unlocked, or it has taken this lock and not yet all the others
it needs, or has not yet given it back. -/
def FHolds (f : FSys) (a n : Nat) : Prop := Holds f.sys a n ∨ ∃ x ∈ (f.fine a).temp, sameLock x.1 n

theorem FRel.exclusive (hF : FRel env Calm f s σ t seen) (n : Nat) :
    (∀ a b, a ≠ b → FHolds f a n → ¬ FHolds f b n) ∧ (f.sys.st.gen n % 2 = 1 ↔ ∃ a, FHolds f a n) := by
  have hL := (hF.run.tidyOf fun _ _ _ hr hc => by
    obtain ⟨_, _, hI⟩ := hr.inv
    exact Calm.tidyAbort hI hc).locks
  have hold : ∀ a, Holds f.sys a n → s.st.gen n % 2 = 1 ∧ ∃ m ∈ (s.holding a).list, sameLock m n := by
    rintro a ⟨m, h1, h2⟩
    have h1 : m ∈ (s.holding a).list := by
      unfold Sys.holding at h1 ⊢
      rw [hF.proc] at h1
      exact h1
    exact ⟨by rw [← gen_congr h2]; exact hL.odd a m h1, m, h1, h2⟩
  have temp : ∀ a x, x ∈ (f.fine a).temp → sameLock x.1 n → s.st.gen n % 2 = 0 ∧ f.sys.st.gen n % 2 = 1 := by
    intro a x h1 h2
    obtain ⟨e1, e2, e3⟩ := hF.locks.held a x h1
    rw [gen_congr h2] at e1 e2
    omega
  refine ⟨?_, ?_, ?_⟩
  · rintro a b hab (h1 | ⟨x, h1, h2⟩) (h3 | ⟨y, h3, h4⟩)
    · obtain ⟨_, m, h1, h2⟩ := hold a h1
      obtain ⟨_, m', h3, h4⟩ := hold b h3
      exact hL.excl a b hab m h1 m' h3 (sameLock_trans h2 (sameLock_comm.1 h4))
    · have := hold a h1
      have := temp b y h3 h4
      omega
    · have := hold b h3
      have := temp a x h1 h2
      omega
    · exact hF.locks.sep a b hab x h1 y h3 (sameLock_trans h2 (sameLock_comm.1 h4))
  · intro hn
    rcases hF.locks.cases n with ⟨b, x, h1, h2, _⟩ | ⟨h1, _⟩
    · exact ⟨b, .inr ⟨x, h1, h2⟩⟩
    · obtain ⟨a, m, h2, h3⟩ := hL.held n (by omega)
      refine ⟨a, .inl ⟨m, ?_, h3⟩⟩
      unfold Sys.holding
      rw [hF.proc]
      exact h2
  · rintro ⟨a, h1 | ⟨x, h1, h2⟩⟩
    · obtain ⟨h1, m, h2, h3⟩ := hold a h1
      have := (hF.locks.freeOdd h1).1
      omega
    · exact (temp a x h1 h2).2

/-! ### Calm executions -/

/-- C45: every calm execution with fine steps has a counterpart with coarse steps, in which the same operations are in the same phases, the memory
is the same, and the map is the same.  Lock words differ only while they are held by an operation that has not taken all its locks. -/
theorem C45_simulated_partial (h : FRun env FCalm f σ) : ∃ s, Run env Calm s σ ∧ s.proc = f.sys.proc ∧
    f.sys.st = { s.st with locks := f.sys.st.locks, rootLock := f.sys.st.rootLock } ∧
    ∀ n, f.sys.st.gen n = s.st.gen n ∨ f.sys.st.gen n = s.st.gen n + 1 ∧ ∃ a x, x ∈ (f.fine a).temp ∧ sameLock x.1 n := by
  obtain ⟨s, t, seen, hF⟩ := h.rel
  exact ⟨s, hF.simulated⟩

/-- C45: at every moment the tree contains what the finished updates and deletes have put there. -/
theorem C45_contents_partial (h : FRun env FCalm f σ) {k : Key} (hk : k ≠ []) : content env.fetch f.sys.st k = σ.map k := by
  obtain ⟨s, t, seen, hF⟩ := h.rel
  exact hF.contents hk

/-- C45: the result of a lookup, with any number of other operations under way. -/
theorem C45_lookup_answers_partial (h : FRun env FCalm f σ) {a : Nat} {key k : Key} {res : Option Word} (hc : σ.call a = .lookup key)
    (hp : f.sys.proc a = .rd (.done k res)) : LookupCorrect env σ a key res := by
  obtain ⟨s, t, seen, hF⟩ := h.rel
  exact lookup_correct hF.run hc (by rw [← hF.proc]; exact hp)

/-- C45: the result of `PrepareUpdate`. -/
theorem C45_update_answers_partial (h : FRun env FCalm f σ) {a : Nat} {key : Key} {found : Bool} {op : UpdOp}
    (hc : σ.call a = .update key) (hp : f.sys.proc a = .upd (.held found op)) :
    (found = false → σ.map key = none) ∧
    (found = true → (∃ M ∈ σ.window a, ∃ k', M k' = some op.value ∧ env.fetch op.value = k') ∧ ∀ v, σ.map key = some v → op.value = v) := by
  obtain ⟨s, t, seen, hF⟩ := h.rel
  exact C04_prepare_update_classifies_concurrent_partial hF.run hc (by rw [← hF.proc]; exact hp)

/-- C45: the result of `PrepareDelete`. -/
theorem C45_delete_answers_partial (h : FRun env FCalm f σ) {a : Nat} {key : Key} (hc : σ.call a = .delete key) :
    (∀ k, f.sys.proc a = .del (.miss k) → ∃ M ∈ σ.window a, M key = none) ∧
    (∀ cur, f.sys.proc a = .del (.held cur) → ∃ M ∈ σ.window a, ∃ k', M k' = some cur.op.value ∧ env.fetch cur.op.value = k' ∧
      ((∀ M ∈ σ.window a, M key ≠ none) → k' = key)) := by
  obtain ⟨s, t, seen, hF⟩ := h.rel
  rw [hF.proc]
  exact C09_delete_answers_partial hF.run hc

/-- C45: the effects.  Only `commit`, the store or compare-and-swap that publishes a change, changes the contents of the tree; if it succeeds the
change is the one of the operation, and otherwise there is none.  A delete that succeeds finds its key stored. -/
theorem C45_effects_partial {f' : FSys} {act : FAct} {ev : Ev} (h : FRun env FCalm f σ) (hall : env.Allowed f.sys act.act) (hcalm : FCalm f act)
    (he : fexec env.fetch f act = some (.ok (f', ev))) {k : Key} (hk : k ≠ []) :
    match act with
    | .commit a =>
      (∃ op value cm b tl, f.sys.proc a = .updB op value cm ∧ f'.sys.proc a = .upd (.tail b tl) ∧
        content env.fetch f'.sys.st k = if b = true ∧ k = op.key then some (trunc55 value) else content env.fetch f.sys.st k) ∨
      (∃ cur cm b tl, f.sys.proc a = .delB cur cm ∧ f'.sys.proc a = .del (.tail b tl) ∧
        content env.fetch f'.sys.st k = (if b = true ∧ k = cur.key then none else content env.fetch f.sys.st k) ∧
        (b = true → content env.fetch f.sys.st cur.key ≠ none))
    | _ => content env.fetch f'.sys.st k = content env.fetch f.sys.st k := by
  obtain ⟨s, t, seen, hF⟩ := h.rel
  obtain ⟨s', t', seen', hF'⟩ := (FRun.step h hall hcalm he).rel
  have := hF.effects hF' (by rintro a rfl; exact hF.calm (by simp) hcalm) he hk
  cases act <;> exact this

/-- C45: a step panics only if no memory block is left, or `Finalize` recycles a node of exactly 258 slots after its change has taken effect. -/
theorem C45_panics_partial (h : FRun env FCalm f σ) {act : FAct} {e : Panic} (hall : env.Allowed f.sys act.act)
    (hcalm : FCalm f act) (he : fexec env.fetch f act = some (.error e)) :
    ((act = .block ∨ ∃ a value, act = .build a value) ∧ e = .noBlocks) ∨
    (∃ a, act = .tail a ∧ e = .index ∧ ∃ b tl n, (f.sys.proc a = .upd (.tail b tl) ∨ f.sys.proc a = .del (.tail b tl)) ∧ tl.free = some (n, 258)) := by
  obtain ⟨s, t, seen, hF⟩ := h.rel
  exact hF.panics hall (.inr hcalm) (fun hn => hF.calm hn hcalm) he

/-- C45: two operations never hold a common lock word; a lock word is odd if and only if an operation holds it. -/
theorem C45_locks_are_exclusive_partial (h : FRun env FCalm f σ) (n : Nat) :
    (∀ a b, a ≠ b → FHolds f a n → ¬ FHolds f b n) ∧ (f.sys.st.gen n % 2 = 1 ↔ ∃ a, FHolds f a n) := by
  obtain ⟨s, t, seen, hF⟩ := h.rel
  exact hF.exclusive n

end

/-! ## Executions -/

/-- A condition that implies `FCalm`, decided for allocators in use. -/
def fcalmB (f : FSys) : FAct → Bool
  | .step a =>
    match f.sys.proc a with
    | .del (.lock3 cur _ _) =>
      match f.fine a with
      | .merge _ _ => decide (f.sys.st.gen cur.op.node = cur.op.nodeGen + 1) &&
          (decide (cur.op.parent = 0) || decide (f.sys.st.gen cur.op.parent = cur.op.parentGen + 1))
      | _ => true
    | _ => calmB f.sys (.run a)
  | act => calmB f.sys act.act

theorem fcalmB_sound {env : Env} (f : FSys) (σ : Spec) (act : FAct) (h : FRun env FCalm f σ) (hb : fcalmB f act = true) : FCalm f act := by
  obtain ⟨s, t, seen, hF⟩ := h.rel
  have hoff : ∀ b, f.sys.st.nalloc ≤ b → f.sys.proc b = .idle := by
    have := hF.inv.mem.off
    rw [hF.sys]
    exact this
  cases act with
  | step a =>
    simp only [fcalmB] at hb
    simp only [FCalm]
    split at hb
    · rename_i cur _ _ hp
      simp only [hp]
      rintro ⟨got, P, e⟩
      rw [e] at hb
      simp only [Bool.and_eq_true, Bool.or_eq_true, decide_eq_true_eq] at hb
      exact ⟨hb.1, fun h0 => hb.2.resolve_left h0⟩
    · rename_i h1
      split
      · rename_i hp
        exact absurd hp (h1 _ _ _)
      · exact calmB_sound (act := .run a) hoff hb
  | begin a c => exact calmB_sound (act := .begin a c) hoff hb
  | commit a => exact calmB_sound (act := .commit a) hoff hb
  | quit a => exact calmB_sound (act := .quit a) hoff hb
  | _ => trivial

/-- Perform the steps, as long as they are possible, allowed and satisfy `g`. -/
def ftrace (l : List Key) (g : FSys → FAct → Bool) (f : FSys) (σ : Spec) : List FAct → Option (FSys × Spec)
  | [] => some (f, σ)
  | act :: acts =>
    if allowedB l f.sys act.act && g f act then
      match fexec (fun v => l.getD (v.toNat % l.length) []) f act with
      | some (.ok (f', ev)) => ftrace l g f' (σ.next ev) acts
      | _ => none
    else none

theorem FRun.trace {l h} {G : FSys → FAct → Prop} {g : FSys → FAct → Bool}
    (hg : ∀ f σ act, FRun (Env.ofList l h) G f σ → g f act = true → G f act) :
    ∀ {acts f σ f' σ'}, FRun (Env.ofList l h) G f σ → ftrace l g f σ acts = some (f', σ') → FRun (Env.ofList l h) G f' σ'
  | [], f, σ, f', σ', hr, ht => by
    simp only [ftrace, Option.some.injEq, Prod.mk.injEq] at ht
    obtain ⟨rfl, rfl⟩ := ht
    exact hr
  | act :: acts, f, σ, f', σ', hr, ht => by
    simp only [ftrace] at ht
    split at ht
    · rename_i hb
      simp only [Bool.and_eq_true] at hb
      split at ht
      · rename_i f1 ev he
        exact FRun.trace hg (.step hr (allowedB_sound hb.1) (hg _ _ _ hr hb.2) he) ht
      · cases ht
    · cases ht

def fcheck (l : List Key) (g : FSys → FAct → Bool) (n : Nat) (acts : List FAct) (check : FSys → Spec → Bool) : Bool :=
  match ftrace l g (FSys.new n) .init acts with
  | some (f, σ) => check f σ
  | none => false

theorem FRun.ofCheck {l h} {G : FSys → FAct → Prop} {g : FSys → FAct → Bool}
    (hg : ∀ f σ act, FRun (Env.ofList l h) G f σ → g f act = true → G f act) {n acts check}
    (hc : fcheck l g n acts check = true) : ∃ f σ, FRun (Env.ofList l h) G f σ ∧ check f σ = true := by
  unfold fcheck at hc
  split at hc
  · rename_i f σ ht
    exact ⟨f, σ, FRun.trace hg (.init n) ht, hc⟩
  · cases hc

/-- An update or insert without interruption: `n` accesses until it is prepared, `m` locks. -/
def fputActs (a : Nat) (key : Key) (value : Word) (n m : Nat) : List FAct :=
  [.begin a (.update key), .arm a] ++ List.replicate n (.step a) ++ [.build a value, .commit a] ++ List.replicate m (.unlock a) ++ [.tail a]

/-- The keys "aaa", "aab", "ab" and "b" are inserted. -/
def fsetup : List FAct :=
  [.block] ++ fputActs 0 [97, 97, 97] 0 3 1 ++ fputActs 0 [97, 97, 98] 1 3 1 ++ fputActs 0 [97, 98] 2 7 1 ++ fputActs 0 [98] 3 7 1

/-- Allocator 1 inserts "ac", allocator 0 inserts "aac"; both have read the nodes they need.  Allocator 0 takes the lock of the node "aa"; before it takes
the lock of its parent "a", allocator 1 does. -/
def fclash : List FAct :=
  fsetup ++ [.begin 1 (.update [97, 99]), .arm 1] ++ List.replicate 12 (.step 1) ++ [.begin 0 (.update [97, 97, 99]), .arm 0] ++
    List.replicate 18 (.step 0) ++ List.replicate 2 (.step 1) ++ [.step 0]

/-- Allocator 0 has failed and holds a lock that it has to give back, while allocator 1 is prepared. -/
example : ∃ f σ, FRun (Env.ofList raceKeys raceKeys_good) FCalm f σ ∧ (∃ x todo, f.fine 0 = .back (x :: todo)) ∧ FHolds f 0 4 ∧
    σ.call 1 = .update [97, 99] ∧ ∃ op, f.sys.proc 1 = .upd (.held false op) := by
  obtain ⟨f, σ, h1, h2⟩ := FRun.ofCheck (h := raceKeys_good) (G := FCalm) fcalmB_sound (n := 2) (acts := fclash)
    (check := fun f σ => (match f.fine 0 with | .back [x] => decide (x.1 = 4) | _ => false) && decide (σ.call 1 = .update [97, 99]) &&
      match f.sys.proc 1 with | .upd (.held false _) => true | _ => false) (by decide +kernel)
  simp only [Bool.and_eq_true, decide_eq_true_eq] at h2
  obtain ⟨⟨h3, h4⟩, h5⟩ := h2
  split at h3
  · rename_i x hx
    split at h5
    · rename_i op hp
      refine ⟨f, σ, h1, ⟨_, _, hx⟩, .inr ⟨x, ?_, ?_⟩, h4, _, hp⟩
      · rw [hx]; exact List.mem_cons_self ..
      · rw [of_decide_eq_true h3]; exact ⟨rfl, rfl⟩
    · cases h5
  · cases h3

/-- Both inserts are finished, and a lookup by allocator 1 that began in between has found the new key. -/
example : ∃ f σ, FRun (Env.ofList raceKeys raceKeys_good) FCalm f σ ∧ σ.map [97, 99] = some 5 ∧ σ.map [97, 97, 99] = some 6 ∧
    σ.call 1 = .lookup [97, 97, 99] ∧ ∃ k, f.sys.proc 1 = .rd (.done k (some 6)) := by
  obtain ⟨f, σ, h1, h2⟩ := FRun.ofCheck (h := raceKeys_good) (G := FCalm) fcalmB_sound (n := 2)
    (acts := fclash ++ [.step 0, .build 1 5, .commit 1, .unlock 1, .unlock 1, .tail 1] ++ List.replicate 19 (.step 0) ++
      [.begin 1 (.lookup [97, 97, 99]), .arm 1, .step 1, .build 0 6, .commit 0] ++ List.replicate 8 (.step 1) ++ [.unlock 0, .unlock 0, .tail 0])
    (check := fun f σ => decide (σ.map [97, 99] = some 5) && decide (σ.map [97, 97, 99] = some 6) && decide (σ.call 1 = .lookup [97, 97, 99]) &&
      match f.sys.proc 1 with | .rd (.done _ (some 6)) => true | _ => false) (by decide +kernel)
  simp only [Bool.and_eq_true, decide_eq_true_eq] at h2
  obtain ⟨⟨⟨h3, h4⟩, h5⟩, h6⟩ := h2
  split at h6
  · rename_i k hp
    exact ⟨f, σ, h1, h3, h4, h5, k, hp⟩
  · cases h6

/-- Allocator 1 deletes "ab", so that the node "a" is replaced by its other child "aa"; while it has taken the three locks and reads the prefixes,
allocator 0 begins a lookup. -/
def fmerge : List FAct :=
  fsetup ++ [.begin 1 (.delete [97, 98]), .arm 1] ++ List.replicate 18 (.step 1) ++ [.begin 0 (.lookup [97, 97, 98]), .arm 0] ++
    List.replicate 4 (.step 0)

/-- The delete holds three locks, with nothing published; a step later it has its candidate, and it can publish its change. -/
example : ∃ f σ f' f'', FRun (Env.ofList raceKeys raceKeys_good) FCalm f σ ∧ (∃ x y z P, f.fine 1 = .merge [x, y, z] P) ∧
    fexec (Env.ofList raceKeys raceKeys_good).fetch f (.step 1) = some (.ok (f', .none)) ∧
    (∃ cur, f'.sys.proc 1 = .del (.held cur) ∧ cur.op.value = 2) ∧ fexec (Env.ofList raceKeys raceKeys_good).fetch f' (.build 1 0) = some (.ok (f'', .none)) ∧
    ∃ g, fexec (Env.ofList raceKeys raceKeys_good).fetch f'' (.commit 1) = some (.ok (g, .del [97, 98])) := by
  obtain ⟨f, σ, h1, h2⟩ := FRun.ofCheck (h := raceKeys_good) (G := FCalm) fcalmB_sound (n := 2) (acts := fmerge)
    (check := fun f _ => (match f.fine 1 with | .merge [_, _, _] _ => true | _ => false) &&
      match fexec (Env.ofList raceKeys raceKeys_good).fetch f (.step 1) with
      | some (.ok (f', .none)) => (match f'.sys.proc 1 with | .del (.held cur) => decide (cur.op.value = 2) | _ => false) &&
        match fexec (Env.ofList raceKeys raceKeys_good).fetch f' (.build 1 0) with
        | some (.ok (f'', .none)) =>
          match fexec (Env.ofList raceKeys raceKeys_good).fetch f'' (.commit 1) with
          | some (.ok (_, .del [97, 98])) => true
          | _ => false
        | _ => false
      | _ => false) (by decide +kernel)
  simp only [Bool.and_eq_true] at h2
  obtain ⟨h3, h4⟩ := h2
  split at h3
  · rename_i e3
    split at h4
    · rename_i f' e4
      simp only [Bool.and_eq_true] at h4
      obtain ⟨h5, h6⟩ := h4
      split at h5
      · rename_i cur e5
        split at h6
        · rename_i f'' e6
          split at h6
          · rename_i e7
            exact ⟨f, σ, f', f'', h1, ⟨_, _, _, _, e3⟩, e4, ⟨cur, e5, of_decide_eq_true h5⟩, e6, _, e7⟩
          · cases h6
        · cases h6
      · cases h5
    · cases h4
  · cases h3

/-! ## The full statement -/

/-- C45 in full, its part about the contents; only lookups wait for the first memory block. -/
def C45_statement : Prop :=
  ∀ (env : Env) (f : FSys) (σ : Spec), FRun env (fun f act => ∀ a key, act = .begin a (.lookup key) → 0 < f.sys.st.nblocks) f σ →
    ∀ k, k ≠ [] → content env.fetch f.sys.st k = σ.map k

/-- The three inserts of `raceActs`, access by access. -/
def fraceActs : List FAct :=
  fsetup ++ [.begin 1 (.update [99]), .arm 1] ++ List.replicate 8 (.step 1) ++
  [.begin 2 (.update [97, 97, 99]), .arm 2] ++ List.replicate 6 (.step 2) ++ [.build 1 4, .commit 1] ++
  [.begin 3 (.update [97, 99]), .arm 3] ++ List.replicate 14 (.step 3) ++ [.build 3 5, .commit 3, .unlock 3, .unlock 3, .tail 3] ++
  List.replicate 13 (.step 2) ++ [.build 2 6, .commit 2, .unlock 2, .unlock 2, .tail 2, .unlock 1, .tail 1]

/-- C45 does not hold in full: the race of C09 is one of the code, not of the size of the steps of the model. -/
theorem C45_does_not_hold : ¬ C45_statement := by
  intro hall
  obtain ⟨f, σ, h1, h2⟩ := FRun.ofCheck (h := raceKeys_good)
    (G := fun f act => ∀ a key, act = .begin a (.lookup key) → 0 < f.sys.st.nblocks)
    (g := fun _ act => match act with | .begin _ (.lookup _) => false | _ => true)
    (by
      intro f σ act _ hg a key e
      subst e
      cases hg)
    (n := 4) (acts := fraceActs)
    (check := fun f σ => decide (σ.map [97, 97, 99] = some 6) && decide (search f.sys.st [97, 97, 99] = .ok none)) (by decide +kernel)
  simp only [Bool.and_eq_true, decide_eq_true_eq] at h2
  have := hall _ f σ h1 [97, 97, 99] (by decide)
  unfold content at this
  rw [h2.1, h2.2] at this
  cases this

end Radix
