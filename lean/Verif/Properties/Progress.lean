import Verif.Sys.Progress
import Verif.Properties.Abort
import Verif.Properties.Concurrent
import Verif.Model.LockSteps
/-!
# C44: progress

Lookups finish whatever the others do.  Updates and deletes that are being prepared are only held up by operations that have been prepared:
whenever an operation takes more steps than it needs, another one has been prepared meanwhile.  A prepared operation can always be finished.
-/
set_option autoImplicit false
namespace Radix

/-! ## Lookups -/

/-- Bound on the number of loads until the lookup has its result. -/
def leftR : RPh → Nat
  | .start key => 131 * key.length + 2
  | .node key _ depth => 131 * (key.length - depth) + 1
  | .slot key _ _ depth => 131 * (key.length - depth)
  | .scan key _ i _ _ depth => 131 * (key.length - depth) - i
  | .done _ _ => 0

/-- In a node the depth is less than the length of the key, and a scan has less than 128 children before it. -/
def RPh.Ok : RPh → Prop
  | .slot key _ _ depth => depth < key.length
  | .scan key _ i count _ depth => depth < key.length ∧ i ≤ count ∧ count < fullAllocFrom
  | _ => True

theorem stepR_left {st : St} {ph ph' : RPh} (h : stepR st ph = .ok ph') (hok : ph.Ok) (h1 : ∀ key res, ph ≠ .done key res) :
    leftR ph' < leftR ph ∧ ph'.Ok := by
  have e128 : fullAllocFrom = 128 := rfl
  cases ph with
  | done key res => exact absurd rfl (h1 _ _)
  | start key =>
    simp only [stepR, bind, Except.bind, pure, Except.pure] at h
    repeat' split at h
    all_goals first
      | (cases h; done)
      | (injection h with h; subst h
         refine ⟨?_, trivial⟩
         simp only [leftR]; omega)
  | node key raw depth =>
    simp only [stepR] at h
    obtain ⟨data, _, h⟩ := bind_ok h
    obtain ⟨⟨plen, slots, data'⟩, _, h⟩ := bind_ok h
    simp only at h
    split at h
    · cases h
      exact ⟨by simp only [leftR]; omega, trivial⟩
    · obtain ⟨k, _, h⟩ := bind_ok h
      split at h
      · cases h
        refine ⟨by simp only [leftR]; omega, ?_⟩
        show depth + plen < key.length
        omega
      · split at h
        · cases h
          refine ⟨by simp only [leftR]; omega, ?_⟩
          show depth + plen < key.length ∧ 0 ≤ _ ∧ _
          omega
        · cases h
  | slot key data k depth =>
    have hok : depth < key.length := hok
    simp only [stepR] at h
    obtain ⟨w, _, h⟩ := bind_ok h
    repeat' split at h
    all_goals (cases h; exact ⟨by simp only [leftR]; omega, trivial⟩)
  | scan key data i count k depth =>
    obtain ⟨o1, o2, o3⟩ := hok
    rw [e128] at o3
    simp only [stepR] at h
    obtain ⟨w, _, h⟩ := bind_ok h
    repeat' split at h
    · cases h; exact ⟨by simp only [leftR]; omega, trivial⟩
    · cases h; exact ⟨by simp only [leftR]; omega, trivial⟩
    · cases h; exact ⟨by simp only [leftR]; omega, trivial⟩
    · rename_i hn
      simp only [not_or] at hn
      cases h
      refine ⟨by simp only [leftR]; omega, o1, ?_, o3⟩
      omega

/-- Only its own steps change the phase of a lookup. -/
theorem exec_reader_proc {fetch : Word → Key} {s s' : Sys} {act : Act} {ev : Ev} (h : exec fetch s act = some (.ok (s', ev))) {a : Nat}
    {ph : RPh} (hp : s.proc a = .rd ph) (h1 : act ≠ .run a) (h2 : act ≠ .finish a) : s'.proc a = .rd ph := by
  have key : ∀ {b : Nat} {st' : St} {p' : Proc}, b ≠ a → (s.set b st' p').proc a = .rd ph := fun hb => by
    rw [Sys.set_other _ _ _ _ (Ne.symm hb)]; exact hp
  cases act with
  | block =>
    simp only [exec] at h
    injection h with h
    obtain ⟨st', e, h⟩ := bind_ok h
    cases h; exact hp
  | run b =>
    have hb : b ≠ a := fun e => h1 (by rw [e])
    simp only [exec] at h
    split at h
    all_goals first
      | (cases h; done)
      | (injection h with h; obtain ⟨r, _, h⟩ := bind_ok h; cases h; exact key hb)
  | finish b =>
    have hb : b ≠ a := fun e => h2 (by rw [e])
    simp only [exec] at h
    split at h
    all_goals first | (cases h; done) | (cases h; exact key hb)
  | begin b c | flush b =>
    simp only [exec] at h
    split at h
    · rename_i hq
      have hb : b ≠ a := by rintro rfl; rw [hp] at hq; cases hq
      split at h
      · cases h; exact key hb
      · cases h
    · cases h
  | arm b =>
    simp only [exec] at h
    split at h
    · rename_i hq
      have hb : b ≠ a := by rintro rfl; rw [hp] at hq; cases hq
      cases h; exact key hb
    · cases h
  | slip b =>
    obtain ⟨_, _, ⟨_, _, hq, hs, rfl⟩ | ⟨_, _, hq, hs, rfl⟩⟩ := exec_slip_ok h <;>
      exact key (by rintro rfl; rw [hp] at hq; cases hq)
  | unlock b =>
    obtain ⟨_, ⟨r, tl, u, st', hq, hs, rfl⟩ | ⟨r, tl, u, st', hq, hs, rfl⟩⟩ := exec_unlock_ok h <;>
      exact key (by rintro rfl; rw [hp] at hq; cases hq)
  | quit b =>
    obtain ⟨_, ⟨f, op, hq, rfl⟩ | ⟨cur, hq, rfl⟩⟩ := exec_quit_ok h <;>
      exact key (by rintro rfl; rw [hp] at hq; cases hq)
  | publish b v | build b v | commit b | tail b | abort b =>
    simp only [exec] at h
    split at h
    all_goals first
      | (cases h; done)
      | (rename_i hq
         have hb : b ≠ a := by rintro rfl; rw [hp] at hq; cases hq
         first
           | (cases h; exact key hb)
           | (injection h with h; obtain ⟨r, _, h⟩ := bind_ok h; cases h; exact key hb)
           | (split at h
              · cases h
              · injection h with h; obtain ⟨r, _, h⟩ := bind_ok h; cases h; exact key hb))

theorem execs_leftR {fetch : Word → Key} {a : Nat} : ∀ {acts : List Act} {s s' : Sys} {ph : RPh}, s.proc a = .rd ph → ph.Ok →
    execs fetch s acts = some s' → Act.finish a ∉ acts → acts.count (.run a) ≤ leftR ph
  | [], _, _, _, _, _, _, _ => by simp
  | act :: acts, s, s', ph, hp, hok, h, hfin => by
    simp only [execs] at h
    split at h
    · rename_i s1 ev he
      have hfin' : Act.finish a ∉ acts := fun h => hfin (List.mem_cons_of_mem _ h)
      by_cases hact : act = .run a
      · subst hact
        have hd : ∀ key res, ph ≠ .done key res := by
          rintro key res rfl
          simp [exec, hp] at he
        have hst : ∃ ph', stepR s.st ph = .ok ph' ∧ s1 = s.set a s.st (.rd ph') := by
          cases ph
          case done => exact absurd rfl (hd _ _)
          all_goals
            simp only [exec, hp] at he
            injection he with he
            obtain ⟨ph', e, he⟩ := bind_ok he
            cases he
            exact ⟨_, e, rfl⟩
        obtain ⟨ph', hst, rfl⟩ := hst
        obtain ⟨g1, g2⟩ := stepR_left hst hok hd
        have := execs_leftR (Sys.set_self ..) g2 h hfin'
        rw [List.count_cons_self]
        omega
      · rw [List.count_cons_of_ne (by simpa using hact)]
        exact execs_leftR (exec_reader_proc he hp hact (fun e => hfin (by rw [e]; exact List.mem_cons_self ..))) hok h hfin'
    · cases h

/-- Nine steps of a lookup by allocator 1, and an update by allocator 0. -/
def readActs : List Act :=
  [.run 1, .run 0, .run 1, .run 1] ++ List.replicate 13 (.run 0) ++ [.publish 0 9, .tail 0] ++ List.replicate 6 (.run 1)

/-- C44: a lookup of a key of length n has its result after at most 131 n + 2 loads, whatever steps the other operations take in between.  (This
holds in every state, reachable or not.  That no step of a lookup panics is C10.) -/
theorem C44_lookup_wait_free {fetch : Word → Key} {s s' : Sys} {a : Nat} {key : Key} {acts : List Act} (hp : s.proc a = .rd (.start key))
    (h : execs fetch s acts = some s') (hfin : Act.finish a ∉ acts) : acts.count (.run a) ≤ 131 * key.length + 2 :=
  execs_leftR hp trivial h hfin

/-- For example, a lookup of "bab" by allocator 1 while allocator 0 inserts "baa"; it takes nine loads. -/
example : ∃ s s' acts, s.proc 1 = .rd (.start [98, 97, 98]) ∧ execs (Env.ofList deepKeys deepKeys_good).fetch s acts = some s' ∧
    Act.finish 1 ∉ acts ∧ acts.count (.run 1) = 9 ∧ Act.publish 0 9 ∈ acts ∧ s'.proc 1 = .rd (.done [98, 97, 98] (some 4)) := by
  obtain ⟨s, σ, h1, h2⟩ := Run.ofCheck (h := deepKeys_good) (G := Calm) calm_sound (n := 2)
    (acts := deepActs ++ [.begin 1 (.lookup [98, 97, 98]), .arm 1, .begin 0 (.update [98, 97, 97]), .arm 0])
    (check := fun s _ => (match s.proc 1 with | .rd (.start [98, 97, 98]) => true | _ => false) &&
      (match execs (Env.ofList deepKeys deepKeys_good).fetch s readActs with
      | some s' => (match s'.proc 1 with | .rd (.done [98, 97, 98] (some 4)) => true | _ => false)
      | none => false)) (by decide +kernel)
  simp only [Bool.and_eq_true] at h2
  obtain ⟨h3, h4⟩ := h2
  split at h3
  · split at h4
    · rename_i s' h5
      split at h4
      · exact ⟨s, s', readActs, by assumption, h5, by decide, by decide, by decide, by assumption⟩
      · cases h4
    · cases h4
  · cases h3

/-- C44: in executions that are calm (see `Calm`) the next step of a lookup that has no result yet is always possible. -/
theorem C44_lookup_step {env : Env} {s : Sys} {σ : Spec} (h : Run env Calm s σ) {a : Nat} {ph : RPh} (hp : s.proc a = .rd ph)
    (hd : ∀ key res, ph ≠ .done key res) : ∃ s', exec env.fetch s (.run a) = some (.ok (s', .none)) := by
  obtain ⟨t, seen, hI⟩ := h.inv
  obtain ⟨ph', g1, _⟩ := stepR_inv hI hp hd
  refine ⟨s.set a s.st (.rd ph'), ?_⟩
  cases ph <;> first
    | (simp only [exec, hp, g1, bind, Except.bind, pure, Except.pure]; done)
    | exact absurd rfl (hd _ _)

/-! ## Preparing updates and deletes -/

/-- Steps of allocators 0 and 1 in turn. -/
def turns : List Act := (List.replicate 13 [Act.run 0, .run 1]).flatten

def unpreparedB (s : Sys) : Bool := (List.range s.st.nalloc).all fun b => !(s.proc b).prepared

theorem unpreparedB_sound {s : Sys} (hoff : ∀ b, s.st.nalloc ≤ b → s.proc b = .idle) (h : unpreparedB s = true) (b : Nat) :
    (s.proc b).prepared = false := by
  by_cases hb : b < s.st.nalloc
  · simpa using List.all_eq_true.1 h b (List.mem_range.2 hb)
  · rw [hoff b (by omega)]; rfl

theorem Path.ofTrace {l h} {g : Sys → Act → Bool} (hg : ∀ s σ act, Run (Env.ofList l h) Calm s σ → g s act = true → Calm s act) :
    ∀ {acts s σ s' σ'}, Run (Env.ofList l h) Calm s σ → trace l (fun s act => g s act && unpreparedB s) s σ acts = some (s', σ') →
      unpreparedB s' = true → Path (Env.ofList l h) Calm (fun s => ∀ b, (s.proc b).prepared = false) s acts s'
  | [], s, σ, s', σ', hr, ht, hq => by
    simp only [Radix.trace, Option.some.injEq, Prod.mk.injEq] at ht
    obtain ⟨rfl, rfl⟩ := ht
    obtain ⟨t, seen, hI⟩ := hr.inv
    exact .nil (unpreparedB_sound hI.mem.off hq)
  | act :: acts, s, σ, s', σ', hr, ht, hq => by
    simp only [Radix.trace] at ht
    split at ht
    · rename_i hb
      simp only [Bool.and_eq_true] at hb
      split at ht
      · rename_i s1 ev he
        obtain ⟨t, seen, hI⟩ := hr.inv
        have hc := hg _ _ _ hr hb.2.1
        exact .cons (unpreparedB_sound hI.mem.off hb.2.2) (allowedB_sound hb.1) hc he
          (Path.ofTrace hg (.step hr (allowedB_sound hb.1) hc he) ht hq)
      · cases ht
    · cases ht

/-- C44: an update that is being prepared takes at most 16 n + 18 steps (n the length of the key) until some operation, this one or another,
is prepared, and as many again for each time it meets a lock that another operation holds for a moment while it tries to take its locks
(`slip`).  So whenever `PrepareUpdate` retries again and again, other operations get their work done or try to take locks. -/
theorem C44_prepare_update_partial {env : Env} {s s' : Sys} {σ : Spec} (h : Run env Calm s σ) {a : Nat} {key : Key} (hc : σ.call a = .update key)
    {ph : UPh} (hp : s.proc a = .upd ph) {acts : List Act} (hpath : Path env Calm (fun s => ∀ b, (s.proc b).prepared = false) s acts s') :
    acts.count (.run a) ≤ (16 * key.length + 18) * (acts.count (.slip a) + 1) := by
  have hk : ph.key? = some key := by
    have hq := hpath.head a
    rw [hp] at hq
    cases hk : ph.key? with
    | none => cases ph <;> first | cases hk; done | cases hq
    | some k =>
      have := h.call a (.update k) (by rw [hp]; simp [Proc.call?, hk])
      rw [hc] at this
      injection this with this
      rw [this]
  have := Path.boundU (m := 16 * key.length + 18) hpath h hp hk (.inr (by have := leftU_le hk; omega))
  rw [Nat.mul_add]
  omega

/-- There are such executions: the updates of "baa" by allocator 0 and "bab" by allocator 1, step by step in turn, up to the step before
they take their locks. -/
example : ∃ s s' σ, Run (Env.ofList deepKeys deepKeys_good) Calm s σ ∧ σ.call 0 = .update [98, 97, 97] ∧ (∃ ph, s.proc 0 = .upd ph) ∧
    Path (Env.ofList deepKeys deepKeys_good) Calm (fun s => ∀ b, (s.proc b).prepared = false) s turns s' ∧ turns.count (.run 0) = 13 := by
  obtain ⟨s, σ, h1, h2⟩ := Run.ofCheck (h := deepKeys_good) (G := Calm) calm_sound (n := 2)
    (acts := deepActs ++ [.begin 0 (.update [98, 97, 97]), .arm 0, .begin 1 (.update [98, 97, 98]), .arm 1])
    (check := fun s σ => decide (σ.call 0 = .update [98, 97, 97]) && (match s.proc 0 with | .upd _ => true | _ => false) &&
      (match trace deepKeys (fun s act => calmB s act && unpreparedB s) s σ turns with
      | some (s', _) => unpreparedB s'
      | none => false)) (by decide +kernel)
  simp only [Bool.and_eq_true, decide_eq_true_eq] at h2
  obtain ⟨⟨h3, h4⟩, h5⟩ := h2
  split at h5
  · rename_i s' σ' h6
    refine ⟨s, s', σ, h1, h3, ?_, Path.ofTrace calm_sound h1 h6 h5, by decide⟩
    split at h4
    · exact ⟨_, by assumption⟩
    · cases h4
  · cases h5

/-- The restriction is needed: when allocator 0 has taken its locks, allocator 1 has to start again. -/
example : ∃ s σ, Run (Env.ofList deepKeys deepKeys_good) Calm s σ ∧ (∃ f op, s.proc 0 = .upd (.held f op)) ∧
    s.proc 1 = .upd (.start [98, 97, 98]) := by
  obtain ⟨s, σ, h1, h2⟩ := Run.ofCheck (h := deepKeys_good) (G := Calm) calm_sound (n := 2)
    (acts := deepActs ++ [.begin 0 (.update [98, 97, 97]), .arm 0, .begin 1 (.update [98, 97, 98]), .arm 1] ++ turns ++ [.run 0, .run 1])
    (check := fun s _ => (match s.proc 0 with | .upd (.held _ _) => true | _ => false) &&
      (match s.proc 1 with | .upd (.start [98, 97, 98]) => true | _ => false)) (by decide +kernel)
  simp only [Bool.and_eq_true] at h2
  obtain ⟨h3, h4⟩ := h2
  split at h3
  · split at h4
    · exact ⟨s, σ, h1, ⟨_, _, by assumption⟩, by assumption⟩
    · cases h4
  · cases h3

/-- C44: likewise for deletes (`finish`: `PrepareDelete` returns "not found"). -/
theorem C44_prepare_delete_partial {env : Env} {s s' : Sys} {σ : Spec} (h : Run env Calm s σ) {a : Nat} {key : Key} (hc : σ.call a = .delete key)
    {ph : DPh} (hp : s.proc a = .del ph) {acts : List Act} (hpath : Path env Calm (fun s => ∀ b, (s.proc b).prepared = false) s acts s')
    (hfin : Act.finish a ∉ acts) : acts.count (.run a) ≤ (16 * key.length + 18) * (acts.count (.slip a) + 1) := by
  have hk : ph.key? = some key := by
    have hq := hpath.head a
    rw [hp] at hq
    cases hk : ph.key? with
    | none => cases ph <;> first | cases hk; done | cases hq
    | some k =>
      have := h.call a (.delete k) (by rw [hp]; simp [Proc.call?, hk])
      rw [hc] at this
      injection this with this
      rw [this]
  have := Path.boundD (m := 16 * key.length + 18) hpath hfin h hp hk (.inr (by have := leftD_le hk; omega))
  rw [Nat.mul_add]
  omega

/-- C44: an update that is being prepared, and runs alone from now on, is prepared after at most 16 n + 18 steps of its own, unless another
operation is prepared already.  (Others may be under way, and it may have read what is out of date by now.) -/
theorem C44_update_alone_partial {env : Env} {s : Sys} {σ : Spec} (h : Run env Calm s σ) {a : Nat} {key : Key} (hc : σ.call a = .update key)
    {ph : UPh} (hp : s.proc a = .upd ph) (hq : ∀ b, (s.proc b).prepared = false) :
    ∃ n s', n ≤ 16 * key.length + 18 ∧ execs env.fetch s (List.replicate n (.run a)) = some s' ∧
      (∃ found op, s'.proc a = .upd (.held found op) ∧ op.key = key) ∧ ∀ b, b ≠ a → s'.proc b = s.proc b := by
  have hk : ph.key? = some key := by
    have hq := hq a
    rw [hp] at hq
    cases hk : ph.key? with
    | none => cases ph <;> first | cases hk; done | cases hq
    | some k =>
      have := h.call a (.update k) (by rw [hp]; simp [Proc.call?, hk])
      rw [hc] at this
      injection this with this
      rw [this]
  obtain ⟨n, s', h1, h2, _, h4, h5⟩ := run_soloU (16 * key.length + 18) h (fun b _ => hq b) hp hk (.inr (by have := leftU_le hk; omega))
  exact ⟨n, s', h1, h2, h4, h5⟩

/-- C44: likewise for deletes. -/
theorem C44_delete_alone_partial {env : Env} {s : Sys} {σ : Spec} (h : Run env Calm s σ) {a : Nat} {key : Key} (hc : σ.call a = .delete key)
    {ph : DPh} (hp : s.proc a = .del ph) (hq : ∀ b, (s.proc b).prepared = false) :
    ∃ n s', n ≤ 16 * key.length + 18 ∧ execs env.fetch s (List.replicate n (.run a)) = some s' ∧
      ((∃ cur, s'.proc a = .del (.held cur) ∧ cur.key = key) ∨ s'.proc a = .del (.miss key)) ∧ ∀ b, b ≠ a → s'.proc b = s.proc b := by
  have hk : ph.key? = some key := by
    have hq := hq a
    rw [hp] at hq
    cases hk : ph.key? with
    | none => cases ph <;> first | cases hk; done | cases hq
    | some k =>
      have := h.call a (.delete k) (by rw [hp]; simp [Proc.call?, hk])
      rw [hc] at this
      injection this with this
      rw [this]
  exact run_soloD (16 * key.length + 18) h (fun b _ => hq b) hp hk (.inr (by have := leftD_le hk; omega))

/-! ## Prepared operations -/

/-- Finishing the operation does not run into one of the panics of C10: a node of 258 slots is recycled, or `Abort` of a merge at the root. -/
def Proc.Finishable : Proc → Prop
  | .upd (.tail _ tl) => ∀ n, tl.free ≠ some (n, 258)
  | .del (.tail _ tl) => ∀ n, tl.free ≠ some (n, 258)
  | .updB _ _ cm => ∀ n, cm.ok.free ≠ some (n, 258) ∧ cm.ko.free ≠ some (n, 258)
  | .delB _ cm => ∀ n, cm.ok.free ≠ some (n, 258) ∧ cm.ko.free ≠ some (n, 258)
  | .del (.held cur) => cur.op.kind = .replaceNodeWithNode → cur.op.parent ≠ 0
  | _ => True

theorem tail_finishes {env : Env} {s : Sys} {σ : Spec} (h : Run env Calm s σ) {a : Nat} {b : Bool} {tl : Tail}
    (hp : s.proc a = .upd (.tail b tl) ∨ s.proc a = .del (.tail b tl)) (hf : ∀ n, tl.free ≠ some (n, 258)) :
    ∃ st', exec env.fetch s (.tail a) = some (.ok (s.set a st' .idle, .none)) := by
  have hex : exec env.fetch s (.tail a) = some (do let st ← s.st.runTail a tl; return (s.set a st .idle, .none)) := by
    rcases hp with hp | hp <;> simp only [exec, hp]
  cases ht : s.st.runTail a tl with
  | ok st' => rw [ht] at hex; exact ⟨st', hex⟩
  | error e =>
    rw [ht] at hex
    have he : exec env.fetch s (.tail a) = some (.error e) := hex
    rcases C10_panics_partial h (act := .tail a) trivial trivial he with ⟨⟨⟨⟩⟩ | ⟨_, _, ⟨⟩⟩ | ⟨_, _, ⟨⟩⟩, _⟩ | ⟨a', e1, e2, b2, tl2, n, h3, h4⟩ | ⟨_, ⟨⟩, _⟩
    cases e1
    exfalso
    rcases hp with hp | hp <;> rw [hp] at h3 <;> rcases h3 with h3 | h3 <;> cases h3 <;> exact hf n h4

/-- For example, an update that has built its new node and is about to publish it. -/
example : ∃ s σ, Run (Env.ofList deepKeys deepKeys_good) Calm s σ ∧ (∃ op v cm, s.proc 0 = .updB op v cm) ∧ (s.proc 0).prepared = true ∧
    (s.proc 0).Finishable ∧ Calm s (.commit 0) := by
  obtain ⟨s, σ, h1, h2⟩ := Run.ofCheck (h := deepKeys_good) (G := Calm) calm_sound (n := 2)
    (acts := deepActs ++ [.begin 0 (.update [97, 97, 97]), .arm 0] ++ List.replicate 14 (.run 0) ++ [.build 0 6])
    (check := fun s _ => match s.proc 0 with | .updB _ _ cm => decide (cm.ok.free = none ∧ cm.ko.free = none) | _ => false) (by decide +kernel)
  split at h2
  · rename_i op v cm hp
    have h3 := of_decide_eq_true h2
    refine ⟨s, σ, h1, ⟨op, v, cm, hp⟩, by rw [hp]; rfl, ?_, by simp only [Calm, hp]⟩
    rw [hp]
    intro n
    rw [h3.1, h3.2]
    simp
  · cases h2

/-- C44: nobody waits for a prepared operation forever: it can be finished (`Finalize` from where it is, or `Abort`) with at most two more
steps of its own, whatever the others are doing.  Exceptions: the panics of C10, and a delete of a leaf of a 256-slot node whose
compare-and-swap changes a node that is not in the tree any more (`Calm`). -/
theorem C44_prepared_finishes_partial {env : Env} {s : Sys} {σ : Spec} (h : Run env Calm s σ) {a : Nat} (hp : (s.proc a).prepared = true)
    (hf : (s.proc a).Finishable) (hcalm : Calm s (.commit a)) :
    ∃ acts s', acts.length ≤ 2 ∧ (∀ act ∈ acts, act = .abort a ∨ act = .commit a ∨ act = .tail a) ∧
      execs env.fetch s acts = some s' ∧ s'.proc a = .idle ∧ ∀ b, b ≠ a → s'.proc b = s.proc b := by
  have one : ∀ {act : Act} {st' : St}, (act = .abort a ∨ act = .commit a ∨ act = .tail a) →
      exec env.fetch s act = some (.ok (s.set a st' .idle, .none)) →
      ∃ acts s', acts.length ≤ 2 ∧ (∀ act ∈ acts, act = .abort a ∨ act = .commit a ∨ act = .tail a) ∧
      execs env.fetch s acts = some s' ∧ s'.proc a = .idle ∧ ∀ b, b ≠ a → s'.proc b = s.proc b := by
    intro act st' h1 h2
    refine ⟨[act], _, by simp, by simpa using h1, by rw [execs_one h2]; rfl, Sys.set_self .., fun b hb => Sys.set_other _ _ _ _ hb⟩
  have two : ∀ {st1 : St} {p1 : Proc} {ev : Ev} {b : Bool} {tl : Tail}, exec env.fetch s (.commit a) = some (.ok (s.set a st1 p1, ev)) →
      (p1 = .upd (.tail b tl) ∨ p1 = .del (.tail b tl)) → (∀ n, tl.free ≠ some (n, 258)) →
      ∃ acts s', acts.length ≤ 2 ∧ (∀ act ∈ acts, act = .abort a ∨ act = .commit a ∨ act = .tail a) ∧
      execs env.fetch s acts = some s' ∧ s'.proc a = .idle ∧ ∀ b, b ≠ a → s'.proc b = s.proc b := by
    intro st1 p1 ev b tl h1 h2 h3
    obtain ⟨st2, h4⟩ := tail_finishes (.step h (act := .commit a) trivial hcalm h1) (a := a) (b := b) (tl := tl) (by rw [Sys.set_self]; exact h2) h3
    refine ⟨[.commit a, .tail a], _, by simp, by simp, by rw [execs_one h1, execs_one h4]; rfl, Sys.set_self .., fun b hb => ?_⟩
    rw [Sys.set_other _ _ _ _ hb, Sys.set_other _ _ _ _ hb]
  cases hq : s.proc a with
  | idle => rw [hq] at hp; cases hp
  | arm e c => rw [hq] at hp; cases hp
  | rd ph => rw [hq] at hp; cases hp
  | walk => rw [hq] at hp; cases hp
  | upd ph =>
    cases ph with
    | held f op =>
      obtain ⟨st', h1, _⟩ := C07_abort_update_partial h.calm_tidy hq
      exact one (.inl rfl) (st' := st') (by simp only [exec, hq, h1, bind, Except.bind, pure, Except.pure])
    | tail b tl =>
      rw [hq] at hf
      obtain ⟨st', h1⟩ := tail_finishes h (.inl hq) hf
      exact one (.inr (.inr rfl)) h1
    | _ => rw [hq] at hp; cases hp
  | del ph =>
    cases ph with
    | held cur =>
      rw [hq] at hf
      obtain ⟨st', h1, _⟩ := C08_abort_delete_partial h hq hf
      exact one (.inl rfl) (st' := st') (by simp only [exec, hq, h1, bind, Except.bind, pure, Except.pure])
    | tail b tl =>
      rw [hq] at hf
      obtain ⟨st', h1⟩ := tail_finishes h (.inr hq) hf
      exact one (.inr (.inr rfl)) h1
    | _ => rw [hq] at hp; cases hp
  | updB op value cm =>
    rw [hq] at hf
    refine two (st1 := (s.st.commit cm).2.2) (b := (s.st.commit cm).1) (tl := (s.st.commit cm).2.1) (by simp only [exec, hq]; rfl) (.inl rfl) ?_
    intro n
    unfold St.commit
    repeat' split
    all_goals first | exact (hf n).1 | exact (hf n).2
  | delB cur cm =>
    rw [hq] at hf
    refine two (st1 := (s.st.commit cm).2.2) (b := (s.st.commit cm).1) (tl := (s.st.commit cm).2.1) (by simp only [exec, hq]; rfl) (.inr rfl) ?_
    intro n
    unfold St.commit
    repeat' split
    all_goals first | exact (hf n).1 | exact (hf n).2

/-! ## Taking locks one word at a time -/

/-- Some thread has all the locks it asked for. -/
def LPh.isHeld : LPh → Bool
  | .held _ _ => true
  | _ => false

/-- The thread that takes the step. -/
def LAct.thread : LAct → Nat
  | .lock p _ => p
  | .step p => p
  | .unlock p => p

/-- Several steps of the lock protocol one after the other, as long as no thread gets its locks. -/
def lexecsUntilHeld (s : LSys) : List LAct → Option LSys
  | [] => some s
  | act :: acts =>
    match lexec s act with
    | some s' => if (s'.proc act.thread).isHeld then none else lexecsUntilHeld s' acts
    | none => none

/-- Two threads that want the same two words, in opposite order. -/
def cycleActs : List LAct :=
  [.lock 0 (.two 1 0 2 0), .lock 1 (.two 2 0 1 0), .step 0, .step 1, .step 0, .step 1, .step 0, .step 1, .step 0, .step 1]

/-- C44 does not extend to the steps within `lockNodes2` (which is one step in `Model/Sys`): two threads that want the same two lock words in
opposite order can fail because of each other, although the generations they expect are the current ones and nobody holds a lock, and both
are back where they were.  (In a tree, a parent is always locked after its child; but nodes share lock words.) -/
theorem C44_locking_can_cycle : ∃ s, LRun s ∧ (∀ p, s.proc p = .idle) ∧ s.gen 1 = 0 ∧ s.gen 2 = 0 ∧ lexecsUntilHeld s cycleActs = some s := by
  refine ⟨⟨fun _ _ => 0, fun _ => .idle⟩, .init _ (fun _ _ => rfl), fun _ => rfl, rfl, rfl, ?_⟩
  have h1 : lockBlock 1 = 0 ∧ lockIdx 1 = 1 ∧ lockBlock 2 = 0 ∧ lockIdx 2 = 2 := by decide
  have d12 : lockDiffer 2 1 = true := by decide
  have d21 : lockDiffer 1 2 = true := by decide
  simp [cycleActs, lexecsUntilHeld, lexec, lockPlan, lockPlan2, LSys.gen, setWord, upd, h1, d12, d21, LPh.isHeld, LAct.thread]
  constructor
  · funext b i
    simp only [setWord]
    repeat' split
    all_goals first | rfl | contradiction
  · funext p
    simp only [upd]
    repeat' split
    all_goals first | rfl | contradiction

end Radix
