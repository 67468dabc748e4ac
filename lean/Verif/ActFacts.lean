import Verif.Model.Sys
/-!
# What the steps `slip` and `unlock` are
-/
set_option autoImplicit false
namespace Radix

variable {fetch : Word → Key} {s s' : Sys} {a : Nat} {ev : Ev}

/-- The steps that are not treated here. -/
def Act.coarse : Act → Bool
  | .slip _ | .unlock _ | .quit _ => false
  | _ => true

theorem act_cases (act : Act) : (∃ b, act = .slip b) ∨ (∃ b, act = .unlock b) ∨ (∃ b, act = .quit b) ∨ act.coarse = true := by
  cases act <;> simp [Act.coarse]

theorem exec_slip_ok (h : exec fetch s (.slip a) = some (.ok (s', ev))) :
    ev = .none ∧ s.contended a = true ∧
    ((∃ ph ph', s.proc a = .upd ph ∧ slipU s.st ph = some (.ok ph') ∧ s' = s.set a s.st (.upd ph')) ∨
      ∃ ph ph', s.proc a = .del ph ∧ slipD s.st ph = some (.ok ph') ∧ s' = s.set a s.st (.del ph')) := by
  simp only [exec] at h
  split at h
  · rename_i hc
    split at h
    · rename_i ph hp
      cases hs : slipU s.st ph with
      | none => rw [hs] at h; cases h
      | some r =>
        rw [hs] at h
        cases r with
        | error e => cases h
        | ok ph' => cases h; exact ⟨rfl, hc, .inl ⟨ph, ph', hp, hs, rfl⟩⟩
    · rename_i ph hp
      cases hs : slipD s.st ph with
      | none => rw [hs] at h; cases h
      | some r =>
        rw [hs] at h
        cases r with
        | error e => cases h
        | ok ph' => cases h; exact ⟨rfl, hc, .inr ⟨ph, ph', hp, hs, rfl⟩⟩
    · cases h
  · cases h

theorem exec_unlock_ok (h : exec fetch s (.unlock a) = some (.ok (s', ev))) :
    ev = .none ∧
    ((∃ b tl u st', s.proc a = .upd (.tail b tl) ∧ s.st.unlockOne tl.unl = some (.ok (u, st')) ∧
        s' = s.set a st' (.upd (.tail b { tl with unl := u }))) ∨
      ∃ b tl u st', s.proc a = .del (.tail b tl) ∧ s.st.unlockOne tl.unl = some (.ok (u, st')) ∧
        s' = s.set a st' (.del (.tail b { tl with unl := u }))) := by
  simp only [exec] at h
  split at h
  · rename_i b tl hp
    cases hs : s.st.unlockOne tl.unl with
    | none => rw [hs] at h; cases h
    | some r =>
      rw [hs] at h
      cases r with
      | error e => cases h
      | ok x => obtain ⟨u, st'⟩ := x; cases h; exact ⟨rfl, .inl ⟨b, tl, u, st', hp, hs, rfl⟩⟩
  · rename_i b tl hp
    cases hs : s.st.unlockOne tl.unl with
    | none => rw [hs] at h; cases h
    | some r =>
      rw [hs] at h
      cases r with
      | error e => cases h
      | ok x => obtain ⟨u, st'⟩ := x; cases h; exact ⟨rfl, .inr ⟨b, tl, u, st', hp, hs, rfl⟩⟩
  · cases h

/-- A release of one lock changes nothing but that lock. -/
theorem unlockOne_ok {st st' : St} {u u' : Unlock} (h : st.unlockOne u = some (.ok (u', st'))) :
    (u = .root ∧ u' = .none ∧ st' = st.unlockRoot) ∨ ∃ n l, u.plan = n :: l ∧ u' = .words (l.filter fun m => lockDiffer m n) ∧
      u ≠ .root ∧ (st.gen n + 1) % 2 = 0 ∧ st' = st.setGen n (st.gen n + 1) := by
  have key : u ≠ .root → (match u.plan with
    | [] => none
    | n :: l => some (do
        let st ← st.unlockNode n
        return (.words (l.filter fun m => lockDiffer m n), st)) : Option (Res (Unlock × St))) = some (.ok (u', st')) → ∃ n l, u.plan = n :: l ∧ u' = .words (l.filter fun m => lockDiffer m n) ∧
      u ≠ .root ∧ (st.gen n + 1) % 2 = 0 ∧ st' = st.setGen n (st.gen n + 1) := by
    intro hu h
    split at h
    · cases h
    · rename_i n l hp
      unfold St.unlockNode at h
      by_cases hg : (st.gen n + 1) % 2 = 0
      · rw [if_pos hg] at h
        cases h
        exact ⟨n, l, hp, rfl, hu, hg, rfl⟩
      · rw [if_neg hg] at h
        cases h
  cases u with
  | root => cases h; exact .inl ⟨rfl, rfl, rfl⟩
  | none => cases h
  | two n p => exact .inr (key (by simp) h)
  | three c n p => exact .inr (key (by simp) h)
  | words l => exact .inr (key (by simp) h)

theorem slipU_key {st : St} {ph ph' : UPh} (h : slipU st ph = some (.ok ph')) :
    (∃ key r, ph = .root key r ∧ ph' = .start key) ∨
    (∃ op, ph = .gen op ∧ st.gen (nodeAddr op.raw) % 2 = 0 ∧
      ph' = .ptr { op with node := nodeAddr op.raw, count := nodeCount op.raw, nodeGen := st.gen (nodeAddr op.raw) + 1 }) ∨
    (∃ op, ph = .par op ∧ op.parent ≠ 0 ∧ st.gen op.parent % 2 = 0 ∧
      ((op.parentGen ≠ st.gen op.parent + 1 ∧ ph' = .start op.key) ∨ (op.parentGen = st.gen op.parent + 1 ∧ ph' = .body op))) ∨
    (∃ f op, ph = .lock f op ∧ ph' = .start op.key) := by
  have hg : ∀ n g, st.generation n = .ok g → g = st.gen n := by
    intro n g h
    unfold St.generation at h
    split at h
    · cases h; rfl
    · cases h
  cases ph with
  | root key r => cases h; exact .inl ⟨key, r, rfl, rfl⟩
  | gen op =>
    simp only [slipU] at h
    split at h
    · rename_i he
      cases hs : st.generation (nodeAddr op.raw) with
      | error e => rw [hs] at h; cases h
      | ok g =>
        rw [hs] at h
        cases h
        rw [hg _ _ hs]
        exact .inr (.inl ⟨op, rfl, he, rfl⟩)
    · cases h
  | par op =>
    simp only [slipU] at h
    split at h
    · rename_i he
      cases hs : st.generation op.parent with
      | error e => rw [hs] at h; cases h
      | ok g =>
        rw [hs] at h
        simp only [bind, Except.bind, pure, Except.pure] at h
        rw [hg _ _ hs] at h
        split at h
        · rename_i hne; cases h; exact .inr (.inr (.inl ⟨op, rfl, he.1, he.2, .inl ⟨hne, rfl⟩⟩))
        · rename_i hne; cases h; exact .inr (.inr (.inl ⟨op, rfl, he.1, he.2, .inr ⟨Decidable.not_not.1 hne, rfl⟩⟩))
    · cases h
  | lock f op => cases h; exact .inr (.inr (.inr ⟨f, op, rfl, rfl⟩))
  | _ => cases h

theorem slipD_key {st : St} {ph ph' : DPh} (h : slipD st ph = some (.ok ph')) :
    (∃ key r, ph = .root key r ∧ ph' = .start key) ∨
    (∃ cur, ph = .gen cur ∧ st.gen (nodeAddr cur.op.raw) % 2 = 0 ∧
      ph' = .ptr { cur with op := { cur.op with node := nodeAddr cur.op.raw, nodeGen := st.gen (nodeAddr cur.op.raw) + 1 } }) ∨
    (∃ cur, ph = .par cur ∧ cur.op.parent ≠ 0 ∧ st.gen cur.op.parent % 2 = 0 ∧
      ((cur.op.parentGen ≠ st.gen cur.op.parent + 1 ∧ ph' = .start cur.key) ∨
        (cur.op.parentGen = st.gen cur.op.parent + 1 ∧ ph' = .body cur))) ∨
    (∃ cur, ph = .lock cur ∧ ph' = .start cur.key) ∨
    (∃ cur p other plen, ph = .cgen cur p other plen ∧ st.gen cur.op.child % 2 = 0 ∧
      ph' = .cptr { cur with op := { cur.op with childGen := st.gen cur.op.child + 1 } } p other plen) ∨
    (∃ cur other plen, ph = .lock3 cur other plen ∧ ph' = .start cur.key) := by
  have hg : ∀ n g, st.generation n = .ok g → g = st.gen n := by
    intro n g h
    unfold St.generation at h
    split at h
    · cases h; rfl
    · cases h
  cases ph with
  | root key r => cases h; exact .inl ⟨key, r, rfl, rfl⟩
  | gen cur =>
    simp only [slipD] at h
    split at h
    · rename_i he
      cases hs : st.generation (nodeAddr cur.op.raw) with
      | error e => rw [hs] at h; cases h
      | ok g =>
        rw [hs] at h
        cases h
        rw [hg _ _ hs]
        exact .inr (.inl ⟨cur, rfl, he, rfl⟩)
    · cases h
  | par cur =>
    simp only [slipD] at h
    split at h
    · rename_i he
      cases hs : st.generation cur.op.parent with
      | error e => rw [hs] at h; cases h
      | ok g =>
        rw [hs] at h
        simp only [bind, Except.bind, pure, Except.pure] at h
        rw [hg _ _ hs] at h
        split at h
        · rename_i hne; cases h; exact .inr (.inr (.inl ⟨cur, rfl, he.1, he.2, .inl ⟨hne, rfl⟩⟩))
        · rename_i hne; cases h; exact .inr (.inr (.inl ⟨cur, rfl, he.1, he.2, .inr ⟨Decidable.not_not.1 hne, rfl⟩⟩))
    · cases h
  | lock cur => cases h; exact .inr (.inr (.inr (.inl ⟨cur, rfl, rfl⟩)))
  | cgen cur p other plen =>
    simp only [slipD] at h
    split at h
    · rename_i he
      cases hs : st.generation cur.op.child with
      | error e => rw [hs] at h; cases h
      | ok g =>
        rw [hs] at h
        cases h
        rw [hg _ _ hs]
        exact .inr (.inr (.inr (.inr (.inl ⟨cur, p, other, plen, rfl, he, rfl⟩))))
    · cases h
  | lock3 cur other plen => cases h; exact .inr (.inr (.inr (.inr (.inr ⟨cur, other, plen, rfl, rfl⟩))))
  | _ => cases h

theorem exec_quit_ok (h : exec fetch s (.quit a) = some (.ok (s', ev))) :
    ev = .none ∧
    ((∃ f op, s.proc a = .upd (.held f op) ∧ s' = s.set a s.st (.upd (.tail false { unl := op.abortUnl }))) ∨
      ∃ cur, s.proc a = .del (.held cur) ∧ s' = s.set a s.st (.del (.tail false { unl := cur.op.abortUnl }))) := by
  simp only [exec] at h
  split at h
  · rename_i f op hp
    cases h
    exact ⟨rfl, .inl ⟨f, op, hp, rfl⟩⟩
  · rename_i cur hp
    cases h
    exact ⟨rfl, .inr ⟨cur, hp, rfl⟩⟩
  · cases h

theorem exec_slip_st (h : exec fetch s (.slip a) = some (.ok (s', ev))) : s'.st = s.st := by
  obtain ⟨_, _, ⟨ph, ph', hp, hs, rfl⟩ | ⟨ph, ph', hp, hs, rfl⟩⟩ := exec_slip_ok h <;> rfl

theorem exec_quit_st (h : exec fetch s (.quit a) = some (.ok (s', ev))) : s'.st = s.st := by
  obtain ⟨_, ⟨f, op, hp, rfl⟩ | ⟨cur, hp, rfl⟩⟩ := exec_quit_ok h <;> rfl

/-- Someone else is about to take locks. -/
theorem contended_iff : s.contended a = true ↔ ∃ b, b < s.st.nalloc ∧ b ≠ a ∧ (s.proc b).locking = true := by
  unfold Sys.contended
  rw [List.any_eq_true]
  constructor
  · rintro ⟨b, h1, h2⟩
    simp only [ne_eq, Bool.and_eq_true, decide_eq_true_eq] at h2
    exact ⟨b, List.mem_range.1 h1, h2.1, h2.2⟩
  · rintro ⟨b, h1, h2, h3⟩
    exact ⟨b, List.mem_range.2 h1, by simp [h2, h3]⟩

end Radix
