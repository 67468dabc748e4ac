import Verif.Sys.Facts
/-!
# Sequences of steps, and operations without competition
-/
namespace Radix

/-- Several steps one after the other; `none` if one of them is not possible or panics. -/
def execs (fetch : Word → Key) : Sys → List Act → Option Sys
  | s, [] => some s
  | s, act :: acts =>
    match exec fetch s act with
    | some (.ok (s', _)) => execs fetch s' acts
    | _ => none

theorem execs_append {fetch : Word → Key} {s : Sys} (l1 l2 : List Act) :
    execs fetch s (l1 ++ l2) = (execs fetch s l1).bind fun s' => execs fetch s' l2 := by
  induction l1 generalizing s with
  | nil => rfl
  | cons act l1 ih =>
    simp only [List.cons_append, execs]
    split
    · exact ih
    · rfl

theorem execs_one {fetch : Word → Key} {s s' : Sys} {act : Act} {ev : Ev} (h : exec fetch s act = some (.ok (s', ev))) (l : List Act) :
    execs fetch s (act :: l) = execs fetch s' l := by
  simp [execs, h]

section
variable {env : Env} {s : Sys} {σ : Spec} {a : Nat} (h : Run env Calm s σ) (hS : SInv s)
include h hS

theorem Run.stepOne {act : Act} {s' : Sys} {ev : Ev} (hall : env.Allowed s act) (hw : OneWriter s act)
    (he : exec env.fetch s act = some (.ok (s', ev))) : Run env Calm s' (σ.next ev) ∧ SInv s' := by
  obtain ⟨t, seen, hI⟩ := h.inv
  exact ⟨.step h hall (SInv.calm hI hS hw) he, exec_oneWriter hI hS hall hw he⟩

/-- One step of `PrepareUpdate` without competition. -/
theorem Run.stepU {ph : UPh} (hp : s.proc a = .upd ph) (h1 : ∀ f op, ph ≠ .held f op) (h2 : ∀ r tl, ph ≠ .tail r tl) :
    ∃ ph' st', exec env.fetch s (.run a) = some (.ok (s.set a st' (.upd ph'), .none)) ∧ Run env Calm (s.set a st' (.upd ph')) σ ∧
      SInv (s.set a st' (.upd ph')) ∧ leftU ph' < leftU ph ∧ ph'.key? = ph.key? ∧ ∀ key, ph' ≠ .start key := by
  obtain ⟨t, seen, hI⟩ := h.inv
  obtain ⟨ph', st', g1, _, g3, g4⟩ := stepU_now hI (hS.lone (by rw [hp]; rfl)) hp h1 h2
  have he : exec env.fetch s (.run a) = some (.ok (s.set a st' (.upd ph'), .none)) := by
    cases ph <;> first
      | (simp only [exec, hp, g1, bind, Except.bind, pure, Except.pure]; done)
      | exact absurd rfl (h1 _ _)
      | exact absurd rfl (h2 _ _)
  obtain ⟨i1, i2⟩ := h.stepOne hS (act := .run a) trivial trivial he
  exact ⟨ph', st', he, i1, i2, g3, stepU_key g1, g4⟩

/-- One step of `PrepareDelete` without competition. -/
theorem Run.stepD {ph : DPh} (hp : s.proc a = .del ph) (h1 : ∀ cur, ph ≠ .held cur) (h2 : ∀ r tl, ph ≠ .tail r tl)
    (h3 : ∀ key, ph ≠ .miss key) :
    ∃ ph' st', exec env.fetch s (.run a) = some (.ok (s.set a st' (.del ph'), .none)) ∧ Run env Calm (s.set a st' (.del ph')) σ ∧
      SInv (s.set a st' (.del ph')) ∧ leftD ph' < leftD ph ∧ ph'.key? = ph.key? ∧ ∀ key, ph' ≠ .start key := by
  obtain ⟨t, seen, hI⟩ := h.inv
  obtain ⟨ph', st', g1, _, g3, g4⟩ := stepD_now hI (hS.lone (by rw [hp]; rfl)) hp (SInv.calm (act := .run a) hI hS trivial) h1 h2 h3
  have he : exec env.fetch s (.run a) = some (.ok (s.set a st' (.del ph'), .none)) := by
    cases ph <;> first
      | (simp only [exec, hp, g1, bind, Except.bind, pure, Except.pure]; done)
      | exact absurd rfl (h1 _)
      | exact absurd rfl (h2 _ _)
      | exact absurd rfl (h3 _)
  obtain ⟨i1, i2⟩ := h.stepOne hS (act := .run a) trivial trivial he
  exact ⟨ph', st', he, i1, i2, g3, stepD_key g1, g4⟩

end

/-- `PrepareUpdate` without competition: it is prepared after a bounded number of steps, and never starts again. -/
theorem Run.prepareU {env : Env} {a : Nat} {key : Key} : ∀ (m : Nat) {s : Sys} {σ : Spec} {ph : UPh}, Run env Calm s σ → SInv s →
    s.proc a = .upd ph → ph.key? = some key → leftU ph ≤ m →
    ∃ n s', n ≤ leftU ph ∧ execs env.fetch s (List.replicate n (.run a)) = some s' ∧ Run env Calm s' σ ∧ SInv s' ∧
      (∃ found op, s'.proc a = .upd (.held found op) ∧ op.key = key) ∧ (∀ b, b ≠ a → s'.proc b = s.proc b) ∧
      ∀ i, 0 < i → i ≤ n → ∃ s2, execs env.fetch s (List.replicate i (.run a)) = some s2 ∧ ∀ key, s2.proc a ≠ .upd (.start key) := by
  intro m
  induction m with
  | zero =>
    intro s σ ph h hS hp hk hm
    cases ph with
    | held f op => exact ⟨0, s, by simp, rfl, h, hS, ⟨f, op, hp, by simpa [UPh.key?] using hk⟩, fun _ _ => rfl, fun i h1 h2 => by omega⟩
    | tail r tl => cases hk
    | _ => simp [leftU] at hm
  | succ m ih =>
    intro s σ ph h hS hp hk hm
    by_cases hh : ∃ f op, ph = .held f op
    · obtain ⟨f, op, rfl⟩ := hh
      exact ⟨0, s, by simp, rfl, h, hS, ⟨f, op, hp, by simpa [UPh.key?] using hk⟩, fun _ _ => rfl, fun i h1 h2 => by omega⟩
    · obtain ⟨ph', st', he, g1, g2, g3, g4, g5⟩ := h.stepU hS hp (fun f op e => hh ⟨f, op, e⟩) (by rintro r tl rfl; cases hk)
      obtain ⟨n, s', i1, i2, i3, i4, i5, i6, i7⟩ := ih g1 g2 (ph := ph') (by simp [Sys.set]) (g4.trans hk) (by omega)
      refine ⟨n + 1, s', by omega, by rw [List.replicate_succ, execs_one he]; exact i2, i3, i4, i5, ?_, ?_⟩
      · intro b hb
        rw [i6 b hb]
        simp [Sys.set, upd_of_ne _ _ hb]
      · intro i j1 j2
        cases i with
        | zero => omega
        | succ i =>
          rw [List.replicate_succ, execs_one he]
          cases i with
          | zero => exact ⟨_, rfl, by simpa [Sys.set] using g5⟩
          | succ i => exact i7 (i + 1) (by omega) (by omega)

/-- `PrepareDelete` without competition: it has its answer after a bounded number of steps, and never starts again. -/
theorem Run.prepareD {env : Env} {a : Nat} {key : Key} : ∀ (m : Nat) {s : Sys} {σ : Spec} {ph : DPh}, Run env Calm s σ → SInv s →
    s.proc a = .del ph → ph.key? = some key → leftD ph ≤ m →
    ∃ n s', n ≤ leftD ph ∧ execs env.fetch s (List.replicate n (.run a)) = some s' ∧ Run env Calm s' σ ∧ SInv s' ∧
      ((∃ cur, s'.proc a = .del (.held cur) ∧ cur.key = key) ∨ s'.proc a = .del (.miss key)) ∧ (∀ b, b ≠ a → s'.proc b = s.proc b) ∧
      ∀ i, 0 < i → i ≤ n → ∃ s2, execs env.fetch s (List.replicate i (.run a)) = some s2 ∧ ∀ key, s2.proc a ≠ .del (.start key) := by
  intro m
  have done : ∀ {s : Sys} {σ : Spec} {ph : DPh}, Run env Calm s σ → SInv s → s.proc a = .del ph → ph.key? = some key →
      ((∃ cur, ph = .held cur) ∨ ∃ k, ph = .miss k) →
      ∃ n s', n ≤ leftD ph ∧ execs env.fetch s (List.replicate n (.run a)) = some s' ∧ Run env Calm s' σ ∧ SInv s' ∧
      ((∃ cur, s'.proc a = .del (.held cur) ∧ cur.key = key) ∨ s'.proc a = .del (.miss key)) ∧ (∀ b, b ≠ a → s'.proc b = s.proc b) ∧
      ∀ i, 0 < i → i ≤ n → ∃ s2, execs env.fetch s (List.replicate i (.run a)) = some s2 ∧ ∀ key, s2.proc a ≠ .del (.start key) := by
    rintro s σ ph h hS hp hk (⟨cur, rfl⟩ | ⟨k, rfl⟩)
    · exact ⟨0, s, by simp, rfl, h, hS, .inl ⟨cur, hp, by simpa [DPh.key?] using hk⟩, fun _ _ => rfl, fun i h1 h2 => by omega⟩
    · refine ⟨0, s, by simp, rfl, h, hS, .inr ?_, fun _ _ => rfl, fun i h1 h2 => by omega⟩
      simp only [DPh.key?, Option.some.injEq] at hk
      rw [hp, hk]
  induction m with
  | zero =>
    intro s σ ph h hS hp hk hm
    cases ph with
    | held cur => exact done h hS hp hk (.inl ⟨_, rfl⟩)
    | miss k => exact done h hS hp hk (.inr ⟨_, rfl⟩)
    | tail r tl => cases hk
    | _ => simp [leftD] at hm
  | succ m ih =>
    intro s σ ph h hS hp hk hm
    by_cases hh : (∃ cur, ph = .held cur) ∨ ∃ k, ph = .miss k
    · exact done h hS hp hk hh
    · obtain ⟨ph', st', he, g1, g2, g3, g4, g5⟩ := h.stepD hS hp (fun cur e => hh (.inl ⟨cur, e⟩)) (by rintro r tl rfl; cases hk)
        (fun k e => hh (.inr ⟨k, e⟩))
      obtain ⟨n, s', i1, i2, i3, i4, i5, i6, i7⟩ := ih g1 g2 (ph := ph') (by simp [Sys.set]) (g4.trans hk) (by omega)
      refine ⟨n + 1, s', by omega, by rw [List.replicate_succ, execs_one he]; exact i2, i3, i4, i5, ?_, ?_⟩
      · intro b hb
        rw [i6 b hb]
        simp [Sys.set, upd_of_ne _ _ hb]
      · intro i j1 j2
        cases i with
        | zero => omega
        | succ i =>
          rw [List.replicate_succ, execs_one he]
          cases i with
          | zero => exact ⟨_, rfl, by simpa [Sys.set] using g5⟩
          | succ i => exact i7 (i + 1) (by omega) (by omega)

end Radix
