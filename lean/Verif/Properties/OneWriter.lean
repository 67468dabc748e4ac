import Verif.Properties.Progress
/-!
# C56: with one writer at a time no operation has to be repeated

Updates and deletes do not overlap with each other; lookups and walks run at any time and are interleaved with them step by step (`OneWriter`,
which also excludes the beginning of a lookup in a tree without blocks, C35, and the unlock by `Abort` of a delete of a lock that it does not
hold, C08).
-/
set_option autoImplicit false
namespace Radix

/-- The operation of the allocator is not being prepared, and no other one is beginning. -/
def Proc.settled : Proc → Bool
  | .idle => true
  | .updB _ _ _ => true
  | .delB _ _ => true
  | .upd (.held _ _) => true
  | .upd (.tail _ _) => true
  | .del (.held _) => true
  | .del (.miss _) => true
  | .del (.tail _ _) => true
  | _ => false

theorem exec_settled {fetch : Word → Key} {s s' : Sys} {act : Act} {ev : Ev} (h : exec fetch s act = some (.ok (s', ev))) {a : Nat}
    (hs : (s.proc a).settled = true) (hb : ∀ c, act ≠ .begin a c) : (s'.proc a).settled = true ∧ act ≠ .run a := by
  have key : ∀ {b : Nat} {st' : St} {p' : Proc}, (b = a → p'.settled = true) → ((s.set b st' p').proc a).settled = true := fun {b st' p'} hb => by
    by_cases e : b = a
    · subst e; rw [Sys.set_self]; exact hb rfl
    · rw [Sys.set_other _ _ _ _ (Ne.symm e)]; exact hs
  cases act with
  | block =>
    simp only [exec] at h
    injection h with h
    obtain ⟨st', e, h⟩ := bind_ok h
    cases h; exact ⟨hs, by simp⟩
  | run b =>
    have hab : b ≠ a := by
      rintro rfl
      simp only [exec] at h
      split at h
      all_goals first
        | (cases h; done)
        | (rename_i hp; rw [hp] at hs; cases hs; done)
        | (rename_i ph n1 n2 hp; rw [hp] at hs; cases ph <;> first | (cases hs; done) | exact absurd rfl (n1 _ _) | exact absurd rfl (n2 _ _))
        | (rename_i ph n1 n2 n3 hp; rw [hp] at hs; cases ph <;> first | (cases hs; done) | exact absurd rfl (n1 _) | exact absurd rfl (n2 _) | exact absurd rfl (n3 _ _))
    refine ⟨?_, fun e => hab (by injection e)⟩
    simp only [exec] at h
    split at h
    all_goals first
      | (cases h; done)
      | (injection h with h; obtain ⟨r, _, h⟩ := bind_ok h; cases h; exact key fun e => absurd e hab)
  | begin b c =>
    have hab : b ≠ a := fun e => hb c (by rw [e])
    refine ⟨?_, by simp⟩
    simp only [exec] at h
    split at h
    · split at h
      · cases h; exact key fun e => absurd e hab
      · cases h
    · cases h
  | flush b =>
    refine ⟨?_, by simp⟩
    simp only [exec] at h
    split at h
    · split at h
      · cases h; exact key fun _ => rfl
      · cases h
    · cases h
  | arm b =>
    refine ⟨?_, by simp⟩
    simp only [exec] at h
    split at h
    · rename_i hp
      cases h
      exact key (by rintro rfl; rw [hp] at hs; cases hs)
    · cases h
  | finish b =>
    refine ⟨?_, by simp⟩
    simp only [exec] at h
    split at h
    all_goals first | (cases h; done) | (cases h; exact key fun _ => rfl)
  | slip b =>
    refine ⟨?_, by simp⟩
    obtain ⟨_, _, ⟨ph, ph', hp, hsl, rfl⟩ | ⟨ph, ph', hp, hsl, rfl⟩⟩ := exec_slip_ok h
    · refine key ?_
      rintro rfl
      rw [hp] at hs
      cases ph <;> first | (cases hs; done) | (simp [slipU] at hsl; done)
    · refine key ?_
      rintro rfl
      rw [hp] at hs
      cases ph <;> first | (cases hs; done) | (simp [slipD] at hsl; done)
  | unlock b =>
    refine ⟨?_, by simp⟩
    obtain ⟨_, ⟨r, tl, u, st', hp, hs, rfl⟩ | ⟨r, tl, u, st', hp, hs, rfl⟩⟩ := exec_unlock_ok h <;> exact key fun _ => rfl
  | quit b =>
    refine ⟨?_, by simp⟩
    obtain ⟨_, ⟨f, op, hp, rfl⟩ | ⟨cur, hp, rfl⟩⟩ := exec_quit_ok h <;> exact key fun _ => rfl
  | publish b v | build b v | commit b | tail b | abort b =>
    refine ⟨?_, by simp⟩
    simp only [exec] at h
    split at h
    all_goals first
      | (cases h; done)
      | (cases h; exact key fun _ => rfl)
      | (injection h with h; obtain ⟨r, _, h⟩ := bind_ok h; cases h; exact key fun _ => rfl)
      | (split at h
         · cases h
         · injection h with h; obtain ⟨r, _, h⟩ := bind_ok h; cases h; exact key fun _ => rfl)

section
variable {env : Env} {a : Nat}

theorem Path.settled {s s' : Sys} {acts : List Act} (h : Path env OneWriter (fun _ => True) s acts s') (hs : (s.proc a).settled = true)
    (hb : ∀ c, Act.begin a c ∉ acts) : acts.count (.run a) = 0 ∧ (s'.proc a).settled = true := by
  induction h with
  | nil _ => exact ⟨rfl, hs⟩
  | @cons s s1 s' act acts ev _ _ _ he _ ih =>
    obtain ⟨h1, h2⟩ := exec_settled he hs (fun c e => hb c (by simp [e]))
    obtain ⟨h3, h4⟩ := ih h1 (fun c hc => hb c (List.mem_cons_of_mem _ hc))
    exact ⟨by rw [List.count_cons_of_ne (by simpa using h2)]; exact h3, h4⟩

/-- A lock is never met while it is held for a moment. -/
theorem SInv.no_slip {s s' : Sys} {ev : Ev} (hS : SInv s) (he : exec env.fetch s (.slip a) = some (.ok (s', ev))) : False := by
  obtain ⟨_, hc, hs⟩ := exec_slip_ok he
  have hw : (s.proc a).writer = true := by
    rcases hs with ⟨ph, ph', hp, _⟩ | ⟨ph, ph', hp, _⟩ <;> rw [hp] <;> rfl
  obtain ⟨b, _, hb⟩ := List.any_eq_true.1 hc
  simp only [ne_eq, Bool.and_eq_true, decide_eq_true_eq] at hb
  exact hb.1 (hS.one _ _ (Proc.writer_of_locking hb.2) hw)

theorem Path.oneU {s s' : Sys} {acts : List Act} (h : Path env OneWriter (fun _ => True) s acts s') :
    ∀ {σ : Spec} {ph : UPh}, Run env OneWriter s σ → s.proc a = .upd ph → (∀ c, Act.begin a c ∉ acts) →
      acts.count (.run a) ≤ leftU ph ∧ ((∀ k, ph ≠ .start k) ∨ 0 < acts.count (.run a) → ∀ k, s'.proc a ≠ .upd (.start k)) := by
  induction h with
  | nil _ =>
    intro σ ph _ hp _
    refine ⟨by simp, ?_⟩
    rintro (h | h) k e
    · rw [hp] at e; injection e with e; exact h k e
    · simp at h
  | @cons s s1 s' act acts ev _ hall hg he hrest ih =>
    intro σ ph hr hp hb
    have hb' : ∀ c, Act.begin a c ∉ acts := fun c hc => hb c (List.mem_cons_of_mem _ hc)
    have hset : (s.proc a).settled = true → (act :: acts).count (.run a) ≤ leftU ph ∧
        ((∀ k, ph ≠ .start k) ∨ 0 < (act :: acts).count (.run a) → ∀ k, s'.proc a ≠ .upd (.start k)) := by
      intro hs
      obtain ⟨h1, h2⟩ := Path.settled (.cons trivial hall hg he hrest) hs hb
      refine ⟨by omega, fun _ k e => ?_⟩
      rw [e] at h2; cases h2
    cases hs : (s.proc a).settled with
    | true => exact hset hs
    | false =>
    obtain ⟨hc, hS⟩ := hr.oneWriter
    have hr1 := Run.step hr hall hg he
    by_cases hact : act = .run a
    · subst hact
      obtain ⟨ph', st', e, _, _, g1, _, g2⟩ := hc.stepU hS hp (by rintro f op rfl; rw [hp] at hs; cases hs) (by rintro r tl rfl; rw [hp] at hs; cases hs)
      rw [e] at he
      cases he
      obtain ⟨i1, i2⟩ := ih hr1 (Sys.set_self ..) hb'
      rw [List.count_cons_self]
      exact ⟨by omega, fun _ => i2 (.inl g2)⟩
    · have hslip : act ≠ .slip a := by rintro rfl; exact hS.no_slip he
      have hfin : act ≠ .finish a := by rintro rfl; simp [exec, hp] at he
      have hq : (s.proc a).prepared = false := by
        rw [hp] at hs ⊢
        cases ph <;> first | rfl | cases hs
      have hp1 := exec_writer_proc he (.inl ⟨_, hp⟩) hq hact hfin hslip
      rw [hp] at hp1
      rw [List.count_cons_of_ne (by simpa using hact)]
      exact ih hr1 hp1 hb'

theorem Path.oneD {s s' : Sys} {acts : List Act} (h : Path env OneWriter (fun _ => True) s acts s') :
    ∀ {σ : Spec} {ph : DPh}, Run env OneWriter s σ → s.proc a = .del ph → (∀ c, Act.begin a c ∉ acts) →
      acts.count (.run a) ≤ leftD ph ∧ ((∀ k, ph ≠ .start k) ∨ 0 < acts.count (.run a) → ∀ k, s'.proc a ≠ .del (.start k)) := by
  induction h with
  | nil _ =>
    intro σ ph _ hp _
    refine ⟨by simp, ?_⟩
    rintro (h | h) k e
    · rw [hp] at e; injection e with e; exact h k e
    · simp at h
  | @cons s s1 s' act acts ev _ hall hg he hrest ih =>
    intro σ ph hr hp hb
    have hb' : ∀ c, Act.begin a c ∉ acts := fun c hc => hb c (List.mem_cons_of_mem _ hc)
    have hset : (s.proc a).settled = true → (act :: acts).count (.run a) ≤ leftD ph ∧
        ((∀ k, ph ≠ .start k) ∨ 0 < (act :: acts).count (.run a) → ∀ k, s'.proc a ≠ .del (.start k)) := by
      intro hs
      obtain ⟨h1, h2⟩ := Path.settled (.cons trivial hall hg he hrest) hs hb
      refine ⟨by omega, fun _ k e => ?_⟩
      rw [e] at h2; cases h2
    cases hs : (s.proc a).settled with
    | true => exact hset hs
    | false =>
    obtain ⟨hc, hS⟩ := hr.oneWriter
    have hr1 := Run.step hr hall hg he
    by_cases hact : act = .run a
    · subst hact
      obtain ⟨ph', st', e, _, _, g1, _, g2⟩ := hc.stepD hS hp (by rintro cur rfl; rw [hp] at hs; cases hs) (by rintro r tl rfl; rw [hp] at hs; cases hs)
        (by rintro k rfl; rw [hp] at hs; cases hs)
      rw [e] at he
      cases he
      obtain ⟨i1, i2⟩ := ih hr1 (Sys.set_self ..) hb'
      rw [List.count_cons_self]
      exact ⟨by omega, fun _ => i2 (.inl g2)⟩
    · have hslip : act ≠ .slip a := by rintro rfl; exact hS.no_slip he
      have hfin : act ≠ .finish a := by
        rintro rfl
        simp only [exec] at he
        split at he
        all_goals first
          | (cases he; done)
          | (rename_i hq; rw [hq] at hs; cases hs; done)
          | (rename_i hq; rw [hp] at hq; cases hq)
      have hq : (s.proc a).prepared = false := by
        rw [hp] at hs ⊢
        cases ph <;> first | rfl | cases hs
      have hp1 := exec_writer_proc he (.inr ⟨_, hp⟩) hq hact hfin hslip
      rw [hp] at hp1
      rw [List.count_cons_of_ne (by simpa using hact)]
      exact ih hr1 hp1 hb'

end

/-- C56: if updates and deletes do not overlap, `PrepareUpdate(key)` takes at most 8 n + 9 steps (n the length of the key), whatever steps
lookups, walks and the block goroutine take in between, and never starts again. -/
theorem C56_update_partial {env : Env} {s s' : Sys} {σ : Spec} (h : Run env OneWriter s σ) {a : Nat} {key : Key}
    (hp : s.proc a = .upd (.start key)) {acts : List Act} (hpath : Path env OneWriter (fun _ => True) s acts s')
    (hb : ∀ c, Act.begin a c ∉ acts) :
    acts.count (.run a) ≤ 8 * key.length + 9 ∧ (0 < acts.count (.run a) → ∀ k, s'.proc a ≠ .upd (.start k)) :=
  ⟨(hpath.oneU h hp hb).1, fun h0 => (hpath.oneU h hp hb).2 (.inr h0)⟩

/-- C56 for deletes. -/
theorem C56_delete_partial {env : Env} {s s' : Sys} {σ : Spec} (h : Run env OneWriter s σ) {a : Nat} {key : Key}
    (hp : s.proc a = .del (.start key)) {acts : List Act} (hpath : Path env OneWriter (fun _ => True) s acts s')
    (hb : ∀ c, Act.begin a c ∉ acts) :
    acts.count (.run a) ≤ 8 * key.length + 9 ∧ (0 < acts.count (.run a) → ∀ k, s'.proc a ≠ .del (.start k)) :=
  ⟨(hpath.oneD h hp hb).1, fun h0 => (hpath.oneD h hp hb).2 (.inr h0)⟩

/-- C56: the next step of an update that is being prepared is always possible, and does not panic. -/
theorem C56_step_update_partial {env : Env} {s : Sys} {σ : Spec} (h : Run env OneWriter s σ) {a : Nat} {ph : UPh} (hp : s.proc a = .upd ph)
    (h1 : ∀ f op, ph ≠ .held f op) (h2 : ∀ r tl, ph ≠ .tail r tl) : ∃ s', exec env.fetch s (.run a) = some (.ok (s', .none)) := by
  obtain ⟨hc, hS⟩ := h.oneWriter
  obtain ⟨ph', st', e, _⟩ := hc.stepU hS hp h1 h2
  exact ⟨_, e⟩

/-- C56: the next step of a delete that is being prepared is always possible, and does not panic. -/
theorem C56_step_delete_partial {env : Env} {s : Sys} {σ : Spec} (h : Run env OneWriter s σ) {a : Nat} {ph : DPh} (hp : s.proc a = .del ph)
    (h1 : ∀ cur, ph ≠ .held cur) (h2 : ∀ r tl, ph ≠ .tail r tl) (h3 : ∀ key, ph ≠ .miss key) :
    ∃ s', exec env.fetch s (.run a) = some (.ok (s', .none)) := by
  obtain ⟨hc, hS⟩ := h.oneWriter
  obtain ⟨ph', st', e, _⟩ := hc.stepD hS hp h1 h2 h3
  exact ⟨_, e⟩

/-- C56: `Finalize` returns true: the step that publishes the change (at once, or after the new nodes were built) succeeds and takes effect on
the map. -/
theorem C56_finalize_partial {env : Env} {s s' : Sys} {σ : Spec} {ev : Ev} (h : Run env OneWriter s σ) {act : Act} {a : Nat}
    (hact : (∃ v, act = .publish a v) ∨ act = .commit a) (hall : env.Allowed s act) (he : exec env.fetch s act = some (.ok (s', ev))) :
    (∃ tl, s'.proc a = .upd (.tail true tl) ∨ s'.proc a = .del (.tail true tl)) ∧
    ((∃ key value, ev = .put key value) ∨ ∃ key, ev = .del key) := by
  obtain ⟨hr, hS⟩ := h.oneWriter
  obtain ⟨t, seen, hI⟩ := hr.inv
  have hnow := hS.now a
  rcases hact with ⟨v, rfl⟩ | rfl
  · have hcalm : Calm s (.publish a v) := SInv.calm (act := .publish a v) hI hS trivial
    simp only [exec] at he
    split at he
    · rename_i f op hp
      rw [hp] at hnow
      rcases publishU_inv hI hp hall with herr | ⟨b, tl, st', g1, g2, _⟩
      · rw [herr] at he; cases he
      · rw [g1] at he
        cases b with
        | false =>
          obtain ⟨h1, h2⟩ := g2 rfl
          exact absurd (hnow (by rw [h1]; rfl) (by rw [h1]; rfl)).1 h2
        | true =>
          cases he
          exact ⟨⟨tl, .inl (Sys.set_self ..)⟩, .inl ⟨_, _, rfl⟩⟩
    · rename_i cur hp
      rw [hp] at hnow
      rcases publishD_inv hI hp hall hcalm with herr | ⟨b, tl, st', g1, g2, _⟩
      · rw [herr] at he; cases he
      · rw [g1] at he
        cases b with
        | false =>
          obtain ⟨h1, h2⟩ := g2 rfl
          exact absurd (hnow h1).1.1 h2
        | true =>
          cases he
          exact ⟨⟨tl, .inr (Sys.set_self ..)⟩, .inr ⟨_, rfl⟩⟩
    · cases he
  · have hcalm : Calm s (.commit a) := SInv.calm (act := .commit a) hI hS trivial
    simp only [exec] at he
    split at he
    · rename_i op value cm hp
      rw [hp] at hnow
      obtain ⟨b, tl, st', g1, g2, _⟩ := commitU_inv hI hp
      rw [g1] at he
      cases b with
      | false =>
        obtain ⟨h1, h2⟩ := g2 rfl
        exact absurd (hnow (by rw [h1]; rfl) (by rw [h1]; rfl)).1 h2
      | true =>
        cases he
        exact ⟨⟨tl, .inl (Sys.set_self ..)⟩, .inl ⟨_, _, rfl⟩⟩
    · rename_i cur cm hp
      rw [hp] at hnow
      obtain ⟨b, tl, st', g1, g2, _⟩ := commitD_inv hI hp hcalm
      rw [g1] at he
      cases b with
      | false =>
        obtain ⟨h1, h2⟩ := g2 rfl
        exact absurd (hnow h1).1.1 h2
      | true =>
        cases he
        exact ⟨⟨tl, .inr (Sys.set_self ..)⟩, .inr ⟨_, rfl⟩⟩
    · cases he

/-! ## Examples, and two writers -/

/-- A writer and a reader in turn. -/
def withReader : List Act := (List.replicate 6 [Act.run 0, .run 1]).flatten

theorem Path.ofExecs {env : Env} {G : Sys → Act → Prop} {Q : Sys → Prop} (hall : ∀ s act, (∀ b c, act ≠ .begin b c) → (∀ b v, act ≠ .publish b v) →
      (∀ b v, act ≠ .build b v) → env.Allowed s act)
    (hG : ∀ s b, G s (.run b)) (hQ : ∀ s, Q s) : ∀ {acts : List Act} {s s' : Sys}, (∀ act ∈ acts, ∃ b, act = .run b) →
      execs env.fetch s acts = some s' → Path env G Q s acts s'
  | [], s, s', _, h => by cases h; exact .nil (hQ _)
  | act :: acts, s, s', hr, h => by
    obtain ⟨b, rfl⟩ := hr act (by simp)
    simp only [execs] at h
    split at h
    · rename_i s1 ev he
      exact .cons (hQ _) (hall _ _ (by simp) (by simp) (by simp)) (hG _ _) he (Path.ofExecs hall hG hQ (fun x hx => hr x (by simp [hx])) h)
    · cases h

/-- For example, allocator 0 updates "baa" while allocator 1 looks up "bab", step by step in turn. -/
example : ∃ s s' σ, Run (Env.ofList deepKeys deepKeys_good) OneWriter s σ ∧ s.proc 0 = .upd (.start [98, 97, 97]) ∧
    Path (Env.ofList deepKeys deepKeys_good) OneWriter (fun _ => True) s withReader s' ∧ (∀ c, Act.begin 0 c ∉ withReader) ∧
    withReader.count (.run 0) = 6 ∧ withReader.count (.run 1) = 6 := by
  obtain ⟨s, σ, h1, h2⟩ := Run.ofCheck (h := deepKeys_good) (G := OneWriter) oneWriter_sound (n := 2)
    (acts := deepActs ++ [.begin 0 (.update [98, 97, 97]), .arm 0, .begin 1 (.lookup [98, 97, 98]), .arm 1])
    (check := fun s _ => (match s.proc 0 with | .upd (.start [98, 97, 97]) => true | _ => false) &&
      (execs (Env.ofList deepKeys deepKeys_good).fetch s withReader).isSome) (by decide +kernel)
  simp only [Bool.and_eq_true] at h2
  obtain ⟨s', hs'⟩ := Option.isSome_iff_exists.1 h2.2
  refine ⟨s, s', σ, h1, ?_, Path.ofExecs ?_ (fun _ _ => trivial) (fun _ => trivial) ?_ hs', by simp [withReader], by decide, by decide⟩
  · have h3 := h2.1
    split at h3
    · assumption
    · cases h3
  · intro s act n1 n2 n3
    cases act <;> first | trivial | exact absurd rfl (n1 _ _) | exact absurd rfl (n2 _ _) | exact absurd rfl (n3 _ _)
  · simp [withReader]

/-- The hypotheses of `C56_finalize_partial` are met: allocator 0 has built the new value of "baa" while allocator 1 has begun a lookup of it. -/
example : ∃ s σ, Run (Env.ofList deepKeys deepKeys_good) OneWriter s σ ∧ (∃ ph, s.proc 1 = .rd ph) ∧
    (∃ op value cm, s.proc 0 = .updB op value cm) ∧
    ∃ s' ev, exec (Env.ofList deepKeys deepKeys_good).fetch s (.commit 0) = some (.ok (s', ev)) := by
  obtain ⟨s, σ, h1, h2⟩ := Run.ofCheck (h := deepKeys_good) (G := OneWriter) oneWriter_sound (n := 2)
    (acts := deepActs ++ [.begin 0 (.update [98, 97, 97]), .arm 0, .begin 1 (.lookup [98, 97, 97]), .arm 1, .run 1] ++ List.replicate 14 (.run 0) ++
      [.run 1, .build 0 9, .run 1])
    (check := fun s _ => (match s.proc 1 with | .rd _ => true | _ => false) && (match s.proc 0 with | .updB _ _ _ => true | _ => false))
    (by decide +kernel)
  simp only [Bool.and_eq_true] at h2
  obtain ⟨h3, h4⟩ := h2
  split at h3
  · split at h4
    · rename_i hp
      exact ⟨s, σ, h1, ⟨_, by assumption⟩, ⟨_, _, _, hp⟩, _, _, by simp only [exec, hp]; rfl⟩
    · cases h4
  · cases h3

/-- With two writers an operation may have to start again: the updates of "baa" and "bab" in turn. -/
theorem C56_needs_one_writer : ∃ (env : Env) (s s' : Sys) (σ : Spec) (acts : List Act) (key : Key), Run env (fun _ _ => True) s σ ∧
    s.proc 1 = .upd (.start key) ∧ Path env (fun _ _ => True) (fun _ => True) s acts s' ∧ (∀ c, Act.begin 1 c ∉ acts) ∧
    0 < acts.count (.run 1) ∧ s'.proc 1 = .upd (.start key) := by
  obtain ⟨s, σ, h1, h2⟩ := Run.ofCheck (h := deepKeys_good) (G := Calm) calm_sound (n := 2)
    (acts := deepActs ++ [.begin 0 (.update [98, 97, 97]), .arm 0, .begin 1 (.update [98, 97, 98]), .arm 1])
    (check := fun s _ => (match s.proc 1 with | .upd (.start [98, 97, 98]) => true | _ => false) &&
      (match execs (Env.ofList deepKeys deepKeys_good).fetch s (turns ++ [.run 0, .run 1]) with
        | some s' => (match s'.proc 1 with | .upd (.start [98, 97, 98]) => true | _ => false)
        | none => false)) (by decide +kernel)
  simp only [Bool.and_eq_true] at h2
  obtain ⟨h3, h4⟩ := h2
  split at h3
  · split at h4
    · rename_i s' hs'
      split at h4
      · refine ⟨_, s, s', σ, turns ++ [.run 0, .run 1], [98, 97, 98], h1.mono fun _ _ _ => trivial, by assumption,
          Path.ofExecs ?_ (fun _ _ => trivial) (fun _ => trivial) ?_ hs', by simp [turns], by decide, by assumption⟩
        · intro s act n1 n2 n3
          cases act <;> first | trivial | exact absurd rfl (n1 _ _) | exact absurd rfl (n2 _ _) | exact absurd rfl (n3 _ _)
        · simp [turns]
      · cases h4
    · cases h4
  · cases h3

end Radix
