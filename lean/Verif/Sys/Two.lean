import Verif.Sys.Apart
/-!
# Two writers

The restrictions of `Calm` that concern the way down (`Sys.Safe`) hold when at most two updates and deletes are under way: while one of
them goes down, at most one other publishes a change and unlocks, and it unlocks a parent before its child.  If the two are updates, or a
delete is alone, all of `Calm` holds.
-/
set_option autoImplicit false
namespace Radix

/-- Does the call write? -/
def Call.writer : Call → Bool
  | .update _ | .delete _ => true
  | _ => false

/-- An update, from its call to its end. -/
def Proc.updating : Proc → Bool
  | .upd _ | .updB _ _ _ | .arm _ (.update _) => true
  | _ => false

/-- A delete, from its call to its end. -/
def Proc.deleting : Proc → Bool
  | .del _ | .delB _ _ | .arm _ (.delete _) => true
  | _ => false

theorem Proc.writer_iff {p : Proc} : p.writer = true ↔ p.updating = true ∨ p.deleting = true := by
  cases p with
  | arm e c => cases c <;> simp [Proc.writer, Proc.updating, Proc.deleting]
  | _ => simp [Proc.writer, Proc.updating, Proc.deleting]

/-- At most one goroutine has an update or delete under way. -/
def Sys.OneBusy (s : Sys) : Prop := ∃ b, ∀ x, x ≠ b → (s.proc x).writer = false

/-- An update or delete begins only when at most one other is under way.  The rest as in `Calm`; nodes merged by a delete use different lock
words. -/
def TwoWriters (s : Sys) : Act → Prop
  | .begin _ (.lookup _) => 0 < s.st.nblocks
  | .begin _ .walk => 0 < s.st.nblocks
  | .begin _ _ => s.OneBusy
  | .run a =>
    match s.proc a with
    | .del (.lock3 cur _ _) =>
      (s.st.lockNodes3 cur.op.child cur.op.childGen cur.op.node cur.op.nodeGen cur.op.parent cur.op.parentGen).1 = true → cur.op.Distinct
    | _ => True
  | .publish a v => Calm s (.publish a v)
  | .commit a => Calm s (.commit a)
  | .quit a => Calm s (.quit a)
  | .abort a => Calm s (.abort a)
  | _ => True

/-- An update begins only when at most one other update and no delete is under way; a delete begins only when no update or delete is under
way.  (Lookups and walks begin when there is a block, see C35; about `quit` see `Serial`.) -/
def TwoUpdates (s : Sys) : Act → Prop
  | .begin _ (.lookup _) => 0 < s.st.nblocks
  | .begin _ .walk => 0 < s.st.nblocks
  | .begin _ (.update _) => s.OneBusy ∧ ∀ x, (s.proc x).deleting = false
  | .begin _ (.delete _) => ∀ x, (s.proc x).writer = false
  | .quit a => Calm s (.quit a)
  | _ => True

theorem OneWriter.twoUpdates {s : Sys} {act : Act} (h : OneWriter s act) : TwoUpdates s act := by
  cases act with
  | begin a c =>
    cases c with
    | lookup key => exact h
    | walk => exact h
    | update key =>
      refine ⟨⟨0, fun x _ => h x⟩, fun x => ?_⟩
      have := h x
      cases hd : (s.proc x).deleting with
      | false => rfl
      | true => rw [Proc.writer_iff.2 (.inr hd)] at this; cases this
    | delete key => exact h
  | quit a => exact h
  | _ => trivial

/-! ## Who is writing -/

/-- A step does not make another operation of an operation, unless it begins one. -/
theorem exec_class {fetch : Word → Key} {s s' : Sys} {act : Act} {ev : Ev} (h : exec fetch s act = some (.ok (s', ev))) (b : Nat) :
    (((s'.proc b).updating = true → (s.proc b).updating = true) ∧ ((s'.proc b).deleting = true → (s.proc b).deleting = true)) ∨
    (∃ c, act = .begin b c ∧ s'.proc b = .arm s.st.epoch c) := by
  have key : ∀ {a : Nat} {st' : St} {p' : Proc}, (p'.updating = true → (s.proc a).updating = true) →
      (p'.deleting = true → (s.proc a).deleting = true) → ∀ b,
      ((((s.set a st' p').proc b).updating = true → (s.proc b).updating = true) ∧
      (((s.set a st' p').proc b).deleting = true → (s.proc b).deleting = true)) := by
    intro a st' p' h1 h2 b
    by_cases hb : b = a
    · subst hb; rw [Sys.set_self]; exact ⟨h1, h2⟩
    · rw [Sys.set_other _ _ _ _ hb]; exact ⟨id, id⟩
  have idle : ∀ {p : Proc}, (Proc.idle.updating = true → p.updating = true) ∧ (Proc.idle.deleting = true → p.deleting = true) :=
    ⟨(fun h => by cases h), (fun h => by cases h)⟩
  cases act with
  | block =>
    simp only [exec] at h
    injection h with h
    obtain ⟨st', e, h⟩ := bind_ok h
    cases h; exact .inl ⟨id, id⟩
  | begin a c =>
    simp only [exec] at h
    split at h
    · split at h
      · cases h
        by_cases hb : b = a
        · subst hb; exact .inr ⟨c, rfl, Sys.set_self _ _ _ _⟩
        · rw [Sys.set_other _ _ _ _ hb]; exact .inl ⟨id, id⟩
      · cases h
    · cases h
  | run a =>
    simp only [exec] at h
    left
    split at h
    all_goals first
      | (cases h; done)
      | (rename_i hp; injection h with h; obtain ⟨r, _, h⟩ := bind_ok h; cases h
         exact key (by rw [hp]; exact id) (by rw [hp]; exact id) b)
  | flush a =>
    simp only [exec] at h
    left
    split at h
    · split at h
      · cases h; exact key idle.1 idle.2 b
      · cases h
    · cases h
  | arm a =>
    simp only [exec] at h
    left
    split at h
    · rename_i e c hp
      cases h
      refine key ?_ ?_ b <;> rw [hp] <;> cases c <;> exact id
    · cases h
  | finish a =>
    simp only [exec] at h
    left
    split at h
    all_goals first | (cases h; done) | (cases h; exact key idle.1 idle.2 b)
  | slip a =>
    left
    obtain ⟨_, _, ⟨ph, ph', hp, hs, rfl⟩ | ⟨ph, ph', hp, hs, rfl⟩⟩ := exec_slip_ok h <;>
      exact key (by rw [hp]; exact id) (by rw [hp]; exact id) b
  | unlock a =>
    left
    obtain ⟨_, ⟨r, tl, u, st', hp, hs, rfl⟩ | ⟨r, tl, u, st', hp, hs, rfl⟩⟩ := exec_unlock_ok h <;>
      exact key (by rw [hp]; exact id) (by rw [hp]; exact id) b
  | quit a =>
    left
    obtain ⟨_, ⟨f, op, hp, rfl⟩ | ⟨cur, hp, rfl⟩⟩ := exec_quit_ok h <;>
      exact key (by rw [hp]; exact id) (by rw [hp]; exact id) b
  | publish a v | build a v | commit a =>
    simp only [exec] at h
    left
    split at h
    all_goals first
      | (cases h; done)
      | (rename_i hp
         first
           | (cases h; exact key (by rw [hp]; exact id) (by rw [hp]; exact id) b)
           | (injection h with h; obtain ⟨r, _, h⟩ := bind_ok h; cases h; exact key (by rw [hp]; exact id) (by rw [hp]; exact id) b)
           | (split at h
              · cases h
              · injection h with h; obtain ⟨r, _, h⟩ := bind_ok h; cases h; exact key (by rw [hp]; exact id) (by rw [hp]; exact id) b))
  | tail a | abort a =>
    simp only [exec] at h
    left
    split at h
    all_goals first
      | (cases h; done)
      | (injection h with h; obtain ⟨r, _, h⟩ := bind_ok h; cases h; exact key idle.1 idle.2 b)

theorem exec_writer {fetch : Word → Key} {s s' : Sys} {act : Act} {ev : Ev} (h : exec fetch s act = some (.ok (s', ev))) (b : Nat)
    (hw : (s'.proc b).writer = true) : (s.proc b).writer = true ∨ ∃ c, act = .begin b c ∧ c.writer = true := by
  rcases exec_class h b with ⟨h1, h2⟩ | ⟨c, e, h1⟩
  · left
    rw [Proc.writer_iff] at hw ⊢
    exact hw.imp h1 h2
  · right
    rw [h1] at hw
    refine ⟨c, e, ?_⟩
    cases c <;> first | rfl | cases hw

/-- At most two goroutines have an update or delete under way. -/
def Sys.TwoBusy (s : Sys) : Prop := ∃ b c, ∀ x, (s.proc x).writer = true → x = b ∨ x = c

theorem Proc.tail_of_searching {p : Proc} (h : p.searching = true) : p.tail? = none := by
  unfold Proc.searching at h
  split at h <;> first | rfl | cases h

theorem Proc.writer_of_searching {p : Proc} (h : p.searching = true) : p.writer = true := by
  unfold Proc.searching at h
  split at h <;> first | rfl | cases h

theorem Proc.tail_none {p : Proc} (h : p.writer = false) : p.tail? = none := by
  cases e : p.tail? with
  | none => rfl
  | some tl => rw [Proc.writer_of_tail e] at h; cases h

theorem Sys.TwoBusy.quiet {s : Sys} {a : Nat} (h : s.TwoBusy) (ha : (s.proc a).writer = true) : s.Quiet a := by
  obtain ⟨b, c, h⟩ := h
  by_cases hs : ∃ x, x ≠ a ∧ (s.proc x).searching = true
  · left
    obtain ⟨x, hx, hs⟩ := hs
    intro y hy
    by_cases hyx : y = x
    · subst hyx; exact Proc.tail_of_searching hs
    · refine Proc.tail_none ?_
      cases hw : (s.proc y).writer with
      | false => rfl
      | true =>
        have := h a ha
        have := h x (Proc.writer_of_searching hs)
        have := h y hw
        omega
  · right
    intro y hy
    cases hw : (s.proc y).searching with
    | false => rfl
    | true => exact absurd ⟨y, hy, hw⟩ hs

theorem TwoBusy.exec {fetch : Word → Key} {s s' : Sys} {act : Act} {ev : Ev} (hg : ∀ a c, act = .begin a c → c.writer = true → s.OneBusy)
    (h : exec fetch s act = some (.ok (s', ev))) (hb : s.TwoBusy) : s'.TwoBusy := by
  by_cases hbeg : ∃ a c, act = .begin a c ∧ c.writer = true
  · obtain ⟨a, c, rfl, hc⟩ := hbeg
    obtain ⟨b, hb⟩ := hg a c rfl hc
    refine ⟨a, b, fun x hx => ?_⟩
    rcases exec_writer h x hx with h1 | ⟨c', e, _⟩
    · right
      exact Classical.byContradiction fun e => by rw [hb x e] at h1; cases h1
    · injection e with e1 e2; exact .inl e1.symm
  · obtain ⟨b, c, hb⟩ := hb
    refine ⟨b, c, fun x hx => ?_⟩
    rcases exec_writer h x hx with h1 | ⟨c', e, hc⟩
    · exact hb x h1
    · exact absurd ⟨x, c', e, hc⟩ hbeg

/-! ## Two writers -/

/-- The operation that publishes or leaves is a writer. -/
theorem exec_pub_writer {fetch : Word → Key} {s s' : Sys} {a : Nat} {ev : Ev} {act : Act} (hact : (∃ v, act = .publish a v) ∨ act = .commit a ∨ act = .quit a)
    (h : exec fetch s act = some (.ok (s', ev))) : (s.proc a).writer = true := by
  rcases hact with ⟨v, rfl⟩ | rfl | rfl <;> simp only [exec] at h <;> split at h <;>
    first | (cases h; done) | (rename_i hp; rw [hp]; rfl)

theorem TwoWriters.apart {fetch : Word → Key} {s s' : Sys} {act : Act} {ev : Ev} (h : TwoWriters s act) (hb : s.TwoBusy)
    (he : exec fetch s act = some (.ok (s', ev))) : Apart s act := by
  cases act with
  | begin a c => cases c <;> first | exact h | trivial
  | run a => exact h
  | publish a v => exact ⟨hb.quiet (exec_pub_writer (.inl ⟨v, rfl⟩) he), h⟩
  | commit a => exact ⟨hb.quiet (exec_pub_writer (.inr (.inl rfl)) he), h⟩
  | quit a => exact ⟨hb.quiet (exec_pub_writer (.inr (.inr rfl)) he), h⟩
  | abort a => exact h
  | _ => trivial

theorem Run.twoWriters {env : Env} {s : Sys} {σ : Spec} (h : Run env TwoWriters s σ) : Run env Apart s σ ∧ s.TwoBusy := by
  induction h with
  | init n => exact ⟨.init n, 0, 0, fun x hx => by cases hx⟩
  | reload _ hs ih => exact ⟨.reload ih.1 hs, 0, 0, fun x hx => by cases hx⟩
  | step _ h1 h2 h3 ih =>
    refine ⟨.step ih.1 h1 (h2.apart ih.2 h3) h3, TwoBusy.exec ?_ h3 ih.2⟩
    rintro a c rfl hc
    cases c <;> first | exact h2 | cases hc

/-! ## Two updates, or one delete -/

/-- Either there are at most two updates, or one delete. -/
def Mode (s : Sys) (t : T) (seen : Nat → T → Prop) : Prop :=
  (s.TwoBusy ∧ (∀ x, (s.proc x).deleting = false) ∧ AInv s t seen) ∨ (SInv s ∧ ∃ a, (s.proc a).deleting = true)

theorem AInv.readers {s : Sys} {t : T} {seen : Nat → T → Prop} (h : ∀ x, (s.proc x).writer = false) : AInv s t seen := by
  refine ⟨fun a => .idle ?_, fun a => ?_⟩
  · cases hs : (s.proc a).searching with
    | false => rfl
    | true => rw [← h a, Proc.writer_of_searching hs]
  · have := h a
    cases hp : s.proc a <;> first | trivial | (rw [hp] at this; cases this)

theorem SInv.readers {s : Sys} (h : ∀ x, (s.proc x).writer = false) : SInv s :=
  ⟨fun a _ ha _ => (by rw [h a] at ha; cases ha), fun a => .reader (h a)⟩

section
variable {env : Env} {s s' : Sys} {σ : Spec} {t : T} {seen : Nat → T → Prop} (hI : Inv env s σ t seen)
include hI

omit hI in
theorem TwoUpdates.apart {act : Act} {ev : Ev} (h : TwoUpdates s act) (hb : s.TwoBusy) (hd : ∀ x, (s.proc x).deleting = false)
    (he : exec env.fetch s act = some (.ok (s', ev))) : Apart s act := by
  have hn : ∀ {a : Nat} {ph : DPh}, s.proc a ≠ .del ph := fun {a ph} e => by have := hd a; rw [e] at this; cases this
  have hn2 : ∀ {a : Nat} {cur : DelCur} {cm : Commit}, s.proc a ≠ .delB cur cm := fun {a _ _} e => by have := hd a; rw [e] at this; cases this
  cases act with
  | begin a c => cases c <;> first | exact h | trivial
  | run a =>
    simp only [Apart]
    split
    · rename_i e; exact absurd e hn
    · trivial
  | publish a v =>
    refine ⟨hb.quiet (exec_pub_writer (.inl ⟨v, rfl⟩) he), ?_⟩
    simp only [Calm]
    split
    · rename_i e; exact absurd e hn
    · trivial
  | commit a =>
    refine ⟨hb.quiet (exec_pub_writer (.inr (.inl rfl)) he), ?_⟩
    simp only [Calm]
    split
    · rename_i e; exact absurd e hn2
    · trivial
  | quit a => exact ⟨hb.quiet (exec_pub_writer (.inr (.inr rfl)) he), h⟩
  | abort a =>
    simp only [Apart, Calm]
    split
    · rename_i e; exact absurd e hn
    · trivial
  | _ => trivial

omit hI in
theorem TwoUpdates.oneWriter {act : Act} (h : TwoUpdates s act) (hd : ∃ a, (s.proc a).deleting = true) : OneWriter s act := by
  cases act with
  | begin a c =>
    cases c with
    | lookup key => exact h
    | walk => exact h
    | update key => obtain ⟨x, hx⟩ := hd; rw [h.2 x] at hx; cases hx
    | delete key => exact h
  | quit a => exact h
  | _ => trivial

theorem Mode.calm {act : Act} (hM : Mode s t seen) (h : TwoUpdates s act) : Calm s act := by
  rcases hM with ⟨h1, h2, h3⟩ | ⟨h1, h2⟩
  · have hn : ∀ {a : Nat} {p : Proc}, p.deleting = true → s.proc a ≠ p := by
      intro a p hp e
      have := h2 a
      rw [e, hp] at this
      cases this
    cases act with
    | begin a c => cases c <;> first | exact h | trivial
    | run a =>
      refine Apart.calm hI h3 (act := .run a) ?_
      simp only [Apart]
      split
      · rename_i hp; exact absurd hp (hn rfl)
      · trivial
    | quit a => exact h
    | publish a v | commit a | abort a =>
      simp only [Calm]
      split
      · rename_i hp; exact absurd hp (hn rfl)
      · trivial
    | _ => trivial
  · exact h1.calm hI (h.oneWriter h2)

/-- Steps of executions with at most two updates, or one delete, at a time. -/
theorem exec_mode {act : Act} {ev : Ev} (hM : Mode s t seen) (hall : env.Allowed s act) (h : TwoUpdates s act)
    (he : exec env.fetch s act = some (.ok (s', ev))) : ∃ t' seen', Inv env s' (σ.next ev) t' seen' ∧ Mode s' t' seen' := by
  have hcalm := hM.calm hI h
  obtain ⟨t', seen', hI'⟩ : ∃ t' seen', Inv env s' (σ.next ev) t' seen' := by
    rcases exec_inv hI hall hcalm he with ⟨s1, ev1, t', seen', e, hI', _⟩ | ⟨e, he', _⟩
    · injection e with e; injection e with e1 e2; subst e1 e2
      exact ⟨t', seen', hI'⟩
    · cases he'
  by_cases hw : ∀ x, (s'.proc x).writer = false
  · refine ⟨t', seen', hI', .inl ⟨⟨0, 0, fun x hx => by rw [hw x] at hx; cases hx⟩, fun x => ?_, .readers hw⟩⟩
    cases hd : (s'.proc x).deleting with
    | false => rfl
    | true => rw [← hw x, Proc.writer_iff.2 (.inr hd)]
  · rcases hM with ⟨h1, h2, h3⟩ | ⟨h1, h2⟩
    · by_cases hd : ∃ x, (s'.proc x).deleting = true
      · -- a delete begins
        obtain ⟨x, hx⟩ := hd
        have hone : ∀ y, (s.proc y).writer = false := by
          rcases exec_class he x with ⟨_, g⟩ | ⟨c, e, g⟩
          · have := g hx; rw [h2 x] at this; cases this
          · subst e
            rw [g] at hx
            cases c with
            | delete key => exact h
            | _ => cases hx
        refine ⟨t', seen', hI', .inr ⟨?_, x, hx⟩⟩
        exact exec_oneWriter hI (SInv.readers hone) hall (by
          rcases exec_class he x with ⟨_, g⟩ | ⟨c, e, g⟩
          · have := g hx; rw [h2 x] at this; cases this
          · subst e
            rw [g] at hx
            cases c with
            | delete key => exact h
            | _ => cases hx) he
      · obtain ⟨t', seen', hI', hA'⟩ := exec_apart hI h3 hall (h.apart h1 h2 he) he
        refine ⟨t', seen', hI', .inl ⟨TwoBusy.exec ?_ he h1, fun x => ?_, hA'⟩⟩
        · rintro a c rfl hc
          cases c with
          | update key => exact h.1
          | delete key => exact ⟨0, fun x _ => h x⟩
          | _ => cases hc
        · cases hx : (s'.proc x).deleting with
          | false => rfl
          | true => exact absurd ⟨x, hx⟩ hd
    · have hS' := exec_oneWriter hI h1 hall (h.oneWriter h2) he
      refine ⟨t', seen', hI', .inr ⟨hS', ?_⟩⟩
      obtain ⟨a, ha⟩ := h2
      obtain ⟨x, hx⟩ : ∃ x, (s'.proc x).writer = true := Classical.byContradiction fun e => hw fun x => by
        cases hx : (s'.proc x).writer with
        | false => rfl
        | true => exact absurd ⟨x, hx⟩ e
      refine ⟨x, ?_⟩
      rcases exec_class he x with ⟨g1, g2⟩ | ⟨c, e, g⟩
      · rcases Proc.writer_iff.1 hx with hu | hd
        · have hu := g1 hu
          have e : x = a := h1.one _ _ (Proc.writer_iff.2 (.inl hu)) (Proc.writer_iff.2 (.inr ha))
          subst e
          exfalso
          cases hp : s.proc x with
          | arm e c => cases c <;> simp_all [Proc.updating, Proc.deleting]
          | _ => simp_all [Proc.updating, Proc.deleting]
        · exact hd
      · subst e
        rw [g] at hx
        cases c with
        | update key => have := h.2 a; rw [this] at ha; cases ha
        | delete key => rw [g]; rfl
        | _ => cases hx

end

/-- Executions with at most two updates, or one delete, at a time are calm. -/
theorem Run.twoUpdates {env : Env} {s : Sys} {σ : Spec} (h : Run env TwoUpdates s σ) :
    Run env Calm s σ ∧ ∃ t seen, Inv env s σ t seen ∧ Mode s t seen := by
  have idle : ∀ {s : Sys} {t : T} {seen : Nat → T → Prop}, (∀ a, s.proc a = .idle) → Mode s t seen := fun {s _ _} h =>
    .inl ⟨⟨0, 0, fun x hx => by rw [h x] at hx; cases hx⟩, fun x => by rw [h x]; rfl, .new h⟩
  induction h with
  | init n => exact ⟨.init n, _, _, new_inv env n, idle fun _ => rfl⟩
  | reload _ hs ih =>
    obtain ⟨hr, t, seen, hI, _⟩ := ih
    exact ⟨.reload hr hs, t, _, restore_inv hI hs, idle fun _ => rfl⟩
  | step _ h1 h2 h3 ih =>
    obtain ⟨hr, t, seen, hI, hM⟩ := ih
    exact ⟨.step hr h1 (hM.calm hI h2) h3, exec_mode hI hM h1 h2 h3⟩

end Radix
