import Verif.Model.Pool
/-!
# Invariant of the allocator pool

For executions in which calls of `Stop`, `Start` and `Len` do not overlap, and `Len` is not called on a stopped tree.
-/
set_option autoImplicit false
namespace Radix

/-- In a call of `Stop`, `Start` or `Len`. -/
def PoolPC.admin : PoolPC → Bool
  | .idle => false
  | .load _ .user => false
  | .cas _ .user => false
  | _ => true

/-- Calls of `Stop`, `Start` and `Len` do not overlap, and `Len` is not called on a stopped tree. -/
def Disciplined (s : Pool) : PAct → Prop
  | .beginStop _ => ∀ t, (s.th t).pc.admin = false
  | .beginStart _ => ∀ t, (s.th t).pc.admin = false
  | .beginLen _ => (∀ t, (s.th t).pc.admin = false) ∧ s.stopped = false
  | _ => True

/-- What is known about a call of `Stop`, `Start` or `Len`; `taken`: the slots taken by `Stop`. -/
def Phase (n : Nat) (stopped quiet : Bool) (taken : List Nat) : PoolPC → Prop
  | .idle => True
  | .load _ .user => True
  | .cas i .user => i < n
  | .load _ (.stop left _) => stopped = true ∧ taken.length + left + 1 = n ∧ quiet = false
  | .cas i (.stop left _) => i < n ∧ stopped = true ∧ taken.length + left + 1 = n ∧ quiet = false
  | .stop len => (stopped = false ∧ taken = [] ∧ quiet = false) ∨ (len = false ∧ stopped = true ∧ taken.length = n)
  | .read => stopped = true ∧ taken.length = n ∧ quiet = false
  | .start => quiet = false ∧ ((stopped = true ∧ taken.length = n) ∨ (stopped = false ∧ taken = []))
  | .puts i => quiet = false ∧ stopped = false ∧ i < n ∧ ∀ j, j ∈ taken ↔ i ≤ j ∧ j < n

/-- The invariant. -/
structure PI (n : Nat) (busy : Nat → Bool) (stopped quiet : Bool) (held : Nat → List Nat) (pc : Nat → PoolPC) (taken : List Nat) : Prop where
  nd : taken.Nodup
  lt : ∀ {i}, i ∈ taken → i < n
  busyIff : ∀ i, busy i = true ↔ i ∈ taken ∨ ∃ t, i ∈ held t
  heldOk : ∀ {t i}, i ∈ held t → i < n ∧ i ∉ taken ∧ ∀ t', t' ≠ t → i ∉ held t'
  hnd : ∀ t, (held t).Nodup
  quietOk : quiet = true → stopped = true ∧ taken.length = n
  one : ∀ {t t'}, (pc t).admin = true → (pc t').admin = true → t = t'
  phase : ∀ t, Phase n stopped quiet taken (pc t)
  rest : (∀ t, (pc t).admin = false) → if stopped then taken.length = n else taken = []

variable {n : Nat} {busy : Nat → Bool} {stopped quiet : Bool} {held : Nat → List Nat} {pc : Nat → PoolPC} {taken : List Nat}

theorem Phase.user {pc : PoolPC} {st' q' : Bool} {taken' : List Nat} (h : Phase n stopped quiet taken pc) (ha : pc.admin = false) :
    Phase n st' q' taken' pc := by
  unfold PoolPC.admin at ha
  split at ha
  · trivial
  · trivial
  · exact h
  · cases ha

/-- A list of `n` different numbers below `n` contains all of them. -/
theorem all_mem : ∀ (n : Nat) {l : List Nat}, l.Nodup → (∀ i ∈ l, i < n) → l.length = n → ∀ i, i < n → i ∈ l := by
  intro n
  induction n with
  | zero => intro l _ _ _ i hi; omega
  | succ n ih =>
    intro l h1 h2 h3 i hi
    by_cases hn : n ∈ l
    · by_cases hin : i = n
      · subst hin; exact hn
      · have h4 : (l.erase n).Nodup := h1.erase n
        have h5 : ∀ j ∈ l.erase n, j < n := by
          intro j hj
          have hj1 := h2 j (List.mem_of_mem_erase hj)
          have hj2 : j ≠ n := fun e => by subst e; exact (List.Nodup.not_mem_erase h1) hj
          omega
        have h6 : (l.erase n).length = n := by rw [List.length_erase_of_mem hn]; omega
        exact List.mem_of_mem_erase (ih h4 h5 h6 i (by omega))
    · exfalso
      have h5 : ∀ j ∈ l, j < n := by
        intro j hj
        have hj1 := h2 j hj
        have hj2 : j ≠ n := fun e => by subst e; exact hn hj
        omega
      cases l with
      | nil => simp at h3
      | cons a l =>
        have h1' := List.nodup_cons.1 h1
        have h6 := ih h1'.2 (fun j hj => h5 j (List.mem_cons_of_mem _ hj)) (by simpa using h3) a (h5 a List.mem_cons_self)
        exact h1'.1 h6

theorem PI.all (h : PI n busy stopped quiet held pc taken) (hl : taken.length = n) {i : Nat} (hi : i < n) : i ∈ taken :=
  all_mem n h.nd (fun _ h' => h.lt h') hl i hi

/-- If all slots are taken, nobody holds an allocator. -/
theorem PI.none_held (h : PI n busy stopped quiet held pc taken) (hl : taken.length = n) (t : Nat) : held t = [] := by
  cases hh : held t with
  | nil => rfl
  | cons i l =>
    have h1 := h.heldOk (t := t) (i := i) (by rw [hh]; exact List.mem_cons_self)
    exact absurd (h.all hl h1.1) h1.2.1

/-- A step of a user which does not change the pool. -/
theorem PI.user (h : PI n busy stopped quiet held pc taken) {t : Nat} {x : PoolPC} (h0 : (pc t).admin = false) (hx : x.admin = false)
    (hp : Phase n stopped quiet taken x) : PI n busy stopped quiet held (upd pc t x) taken where
  nd := h.nd
  lt := h.lt
  busyIff := h.busyIff
  heldOk := h.heldOk
  hnd := h.hnd
  quietOk := h.quietOk
  one := by
    intro t1 t2 h1 h2
    by_cases e1 : t1 = t
    · subst e1; rw [upd_same, hx] at h1; cases h1
    · by_cases e2 : t2 = t
      · subst e2; rw [upd_same, hx] at h2; cases h2
      · rw [upd_of_ne _ _ e1] at h1; rw [upd_of_ne _ _ e2] at h2; exact h.one h1 h2
  phase := by
    intro t1
    by_cases e1 : t1 = t
    · subst e1; rw [upd_same]; exact hp
    · rw [upd_of_ne _ _ e1]; exact h.phase t1
  rest := by
    intro ha
    refine h.rest fun t1 => ?_
    by_cases e1 : t1 = t
    · subst e1; exact h0
    · have := ha t1; rwa [upd_of_ne _ _ e1] at this

/-- A user obtains slot `i`. -/
theorem PI.got (h : PI n busy stopped quiet held pc taken) {t i : Nat} (hi : i < n) (hb : busy i = false) :
    PI n (upd busy i true) stopped quiet (upd held t (i :: held t)) pc taken := by
  have hn : ¬ (i ∈ taken ∨ ∃ t, i ∈ held t) := fun h' => by rw [(h.busyIff i).2 h'] at hb; cases hb
  refine { nd := h.nd, lt := h.lt, busyIff := ?_, heldOk := ?_, hnd := ?_, quietOk := h.quietOk, one := h.one, phase := h.phase, rest := h.rest }
  · intro j
    by_cases e : j = i
    · subst e
      rw [upd_same]
      exact ⟨fun _ => .inr ⟨t, by rw [upd_same]; exact List.mem_cons_self⟩, fun _ => rfl⟩
    · rw [upd_of_ne _ _ e, h.busyIff j]
      refine or_congr_right ⟨?_, ?_⟩
      · rintro ⟨t1, h1⟩
        refine ⟨t1, ?_⟩
        by_cases e1 : t1 = t
        · subst e1; rw [upd_same]; exact List.mem_cons_of_mem _ h1
        · rw [upd_of_ne _ _ e1]; exact h1
      · rintro ⟨t1, h1⟩
        refine ⟨t1, ?_⟩
        by_cases e1 : t1 = t
        · subst e1
          rw [upd_same] at h1
          exact (List.mem_cons.1 h1).resolve_left e
        · rwa [upd_of_ne _ _ e1] at h1
  · intro t1 j h1
    by_cases e : j = i
    · subst e
      have e1 : t1 = t := by
        apply Classical.byContradiction
        intro e1
        rw [upd_of_ne _ _ e1] at h1
        exact hn (.inr ⟨_, h1⟩)
      subst e1
      refine ⟨hi, fun h' => hn (.inl h'), fun t' ht' => ?_⟩
      rw [upd_of_ne _ _ ht']
      exact fun h' => hn (.inr ⟨_, h'⟩)
    · have h2 : j ∈ held t1 := by
        by_cases e1 : t1 = t
        · subst e1
          rw [upd_same] at h1
          exact (List.mem_cons.1 h1).resolve_left e
        · rwa [upd_of_ne _ _ e1] at h1
      obtain ⟨g1, g2, g3⟩ := h.heldOk h2
      refine ⟨g1, g2, fun t' ht' => ?_⟩
      by_cases e1 : t' = t
      · subst e1
        rw [upd_same]
        exact fun h' => g3 t' ht' ((List.mem_cons.1 h').resolve_left e)
      · rw [upd_of_ne _ _ e1]; exact g3 t' ht'
  · intro t1
    by_cases e1 : t1 = t
    · subst e1
      rw [upd_same]
      exact List.nodup_cons.2 ⟨fun h' => hn (.inr ⟨_, h'⟩), h.hnd t1⟩
    · rw [upd_of_ne _ _ e1]; exact h.hnd t1

/-- A user releases slot `i`. -/
theorem PI.release (h : PI n busy stopped quiet held pc taken) {t i : Nat} (hi : i ∈ held t) :
    PI n (upd busy i false) stopped quiet (upd held t ((held t).erase i)) pc taken := by
  obtain ⟨k1, k2, k3⟩ := h.heldOk hi
  refine { nd := h.nd, lt := h.lt, busyIff := ?_, heldOk := ?_, hnd := ?_, quietOk := h.quietOk, one := h.one, phase := h.phase, rest := h.rest }
  · intro j
    by_cases e : j = i
    · subst e
      rw [upd_same]
      refine ⟨fun h' => (by cases h'), ?_⟩
      rintro (h' | ⟨t1, h'⟩)
      · exact absurd h' k2
      · by_cases e1 : t1 = t
        · subst e1
          rw [upd_same] at h'
          exact absurd h' (List.Nodup.not_mem_erase (h.hnd t1))
        · rw [upd_of_ne _ _ e1] at h'
          exact absurd h' (k3 t1 e1)
    · rw [upd_of_ne _ _ e, h.busyIff j]
      refine or_congr_right ⟨?_, ?_⟩
      · rintro ⟨t1, h1⟩
        refine ⟨t1, ?_⟩
        by_cases e1 : t1 = t
        · subst e1; rw [upd_same]; exact (List.mem_erase_of_ne e).2 h1
        · rw [upd_of_ne _ _ e1]; exact h1
      · rintro ⟨t1, h1⟩
        refine ⟨t1, ?_⟩
        by_cases e1 : t1 = t
        · subst e1; rw [upd_same] at h1; exact List.mem_of_mem_erase h1
        · rwa [upd_of_ne _ _ e1] at h1
  · have sub : ∀ t1 j, j ∈ upd held t ((held t).erase i) t1 → j ∈ held t1 := by
      intro t1 j h1
      by_cases e1 : t1 = t
      · subst e1; rw [upd_same] at h1; exact List.mem_of_mem_erase h1
      · rwa [upd_of_ne _ _ e1] at h1
    intro t1 j h1
    obtain ⟨g1, g2, g3⟩ := h.heldOk (sub t1 j h1)
    exact ⟨g1, g2, fun t' ht' h' => g3 t' ht' (sub t' j h')⟩
  · intro t1
    by_cases e1 : t1 = t
    · subst e1; rw [upd_same]; exact (h.hnd t1).erase i
    · rw [upd_of_ne _ _ e1]; exact h.hnd t1

/-- A step of the only call of `Stop`, `Start` or `Len`. -/
theorem PI.set (h : PI n busy stopped quiet held pc taken) {t : Nat} (ho : ∀ t', t' ≠ t → (pc t').admin = false) {busy' : Nat → Bool}
    {stopped' quiet' : Bool} {taken' : List Nat} {x : PoolPC} (nd : taken'.Nodup) (lt : ∀ {i}, i ∈ taken' → i < n)
    (hb : ∀ i, busy' i = true ↔ i ∈ taken' ∨ ∃ t, i ∈ held t) (hh : ∀ {t i}, i ∈ held t → i ∉ taken')
    (hq : quiet' = true → stopped' = true ∧ taken'.length = n) (hp : Phase n stopped' quiet' taken' x)
    (hr : x.admin = false → if stopped' then taken'.length = n else taken' = []) :
    PI n busy' stopped' quiet' held (upd pc t x) taken' where
  nd := nd
  lt := lt
  busyIff := hb
  heldOk := fun h' => ⟨(h.heldOk h').1, hh h', (h.heldOk h').2.2⟩
  hnd := h.hnd
  quietOk := hq
  one := by
    intro t1 t2 h1 h2
    have aux : ∀ t1, (upd pc t x t1).admin = true → t1 = t := by
      intro t1 h1
      apply Classical.byContradiction
      intro e
      rw [upd_of_ne _ _ e, ho t1 e] at h1
      cases h1
    rw [aux t1 h1, aux t2 h2]
  phase := by
    intro t1
    by_cases e1 : t1 = t
    · subst e1; rw [upd_same]; exact hp
    · rw [upd_of_ne _ _ e1]; exact (h.phase t1).user (ho t1 e1)
  rest := fun ha => hr (by have := ha t; rwa [upd_same] at this)

/-- The same without a change of the slots. -/
theorem PI.set' (h : PI n busy stopped quiet held pc taken) {t : Nat} (ho : ∀ t', t' ≠ t → (pc t').admin = false)
    {stopped' quiet' : Bool} {x : PoolPC}
    (hq : quiet' = true → stopped' = true ∧ taken.length = n) (hp : Phase n stopped' quiet' taken x)
    (hr : x.admin = false → if stopped' then taken.length = n else taken = []) :
    PI n busy stopped' quiet' held (upd pc t x) taken :=
  h.set ho h.nd h.lt h.busyIff (fun h' => (h.heldOk h').2.1) hq hp hr

/-- The invariant of a pool. -/
def Pool.Inv (s : Pool) (taken : List Nat) : Prop :=
  PI s.n s.busy s.stopped s.quiet (fun t => (s.th t).held) (fun t => (s.th t).pc) taken

theorem pc_setPc (s : Pool) (t : Nat) (x : PoolPC) : (fun u => ((s.setPc t x).th u).pc) = upd (fun u => (s.th u).pc) t x := by
  funext u
  by_cases e : u = t
  · subst e; simp [Pool.setPc]
  · simp [Pool.setPc, upd_of_ne _ _ e]

theorem held_setPc (s : Pool) (t : Nat) (x : PoolPC) : (fun u => ((s.setPc t x).th u).held) = fun u => (s.th u).held := by
  funext u
  by_cases e : u = t
  · subst e; simp [Pool.setPc]
  · simp [Pool.setPc, upd_of_ne _ _ e]

theorem Pool.Inv.setPc {s : Pool} {t : Nat} {x : PoolPC} {taken : List Nat}
    (h : PI s.n s.busy s.stopped s.quiet (fun t => (s.th t).held) (upd (fun u => (s.th u).pc) t x) taken) : (s.setPc t x).Inv taken := by
  unfold Pool.Inv
  rw [pc_setPc, held_setPc]
  exact h

/-- Every step keeps the invariant. -/
theorem Pool.Inv.exec {s s' : Pool} {act : PAct} {taken : List Nat} (h : s.Inv taken) (hG : Disciplined s act) (he : s.exec act = some s') :
    ∃ taken', s'.Inv taken' := by
  have idle : ∀ {t}, (s.th t).pc = .idle → (s.th t).pc.admin = false := fun e => by rw [e]; rfl
  have others : (∀ t, (s.th t).pc.admin = false) → ∀ t t', t' ≠ t → (s.th t').pc.admin = false := fun h _ t' _ => h t'
  cases act with
  | beginGet t =>
    simp only [Pool.exec] at he
    split at he
    · rename_i hp
      cases he
      exact ⟨taken, .setPc (PI.user h (idle hp) rfl trivial)⟩
    · cases he
  | release t i =>
    simp only [Pool.exec] at he
    split at he
    · rename_i hp
      cases he
      refine ⟨taken, ?_⟩
      have h1 := PI.release h (t := t) (i := i) hp.2
      unfold Pool.Inv
      have e1 : (fun u => (upd s.th t { s.th t with held := (s.th t).held.erase i } u).held) =
          upd (fun u => (s.th u).held) t ((s.th t).held.erase i) := by
        funext u; by_cases e : u = t
        · subst e; simp
        · simp [upd_of_ne _ _ e]
      have e2 : (fun u => (upd s.th t { s.th t with held := (s.th t).held.erase i } u).pc) = fun u => (s.th u).pc := by
        funext u; by_cases e : u = t
        · subst e; simp
        · simp [upd_of_ne _ _ e]
      simp only [e1, e2]
      exact h1
    · cases he
  | beginStop t =>
    simp only [Pool.exec] at he
    split at he
    · rename_i hp
      cases he
      have hr := PI.rest h hG
      refine ⟨taken, .setPc (PI.set' h (others hG t) (PI.quietOk h) ?_ (fun e => by cases e))⟩
      cases hs : s.stopped with
      | true => rw [hs] at hr; exact .inr ⟨rfl, rfl, hr⟩
      | false =>
        rw [hs] at hr
        refine .inl ⟨rfl, hr, ?_⟩
        cases hq : s.quiet with
        | false => rfl
        | true => have := (PI.quietOk h hq).1; rw [hs] at this; cases this
    · cases he
  | beginStart t =>
    simp only [Pool.exec] at he
    split at he
    · rename_i hp
      cases he
      have hr := PI.rest h hG
      refine ⟨taken, Pool.Inv.setPc (s := { s with quiet := false }) (PI.set' h (others hG t) (fun e => by cases e) ⟨rfl, ?_⟩
        (fun e => by cases e))⟩
      cases hs : s.stopped with
      | true => rw [hs] at hr; exact .inl ⟨rfl, hr⟩
      | false => rw [hs] at hr; exact .inr ⟨rfl, hr⟩
    · cases he
  | beginLen t =>
    simp only [Pool.exec] at he
    split at he
    · rename_i hp
      cases he
      have hr := PI.rest h hG.1
      have hs := hG.2
      rw [hs] at hr
      refine ⟨taken, .setPc (PI.set' h (others hG.1 t) (PI.quietOk h) (.inl ⟨hs, hr, ?_⟩) (fun e => by cases e))⟩
      cases hq : s.quiet with
      | false => rfl
      | true => have := (PI.quietOk h hq).1; rw [hs] at this; cases this
    · cases he
  | run t =>
    have hph := PI.phase h t
    have ho : (s.th t).pc.admin = true → ∀ t', t' ≠ t → (s.th t').pc.admin = false := by
      intro ha t' ht'
      cases hb : (s.th t').pc.admin with
      | false => rfl
      | true => exact absurd (PI.one h hb ha) ht'
    have done : ∀ (s : Pool) (len : Bool), s.Inv taken → (∀ t', t' ≠ t → (s.th t').pc.admin = false) → s.stopped = true → taken.length = s.n →
        (len = true → s.quiet = false) → (s.stopDone t len).Inv taken := by
      intro s len h ho h1 h2 h3
      unfold Pool.stopDone
      cases len with
      | true => exact .setPc (PI.set' h ho (PI.quietOk h) ⟨h1, h2, h3 rfl⟩ (fun e => by cases e))
      | false => exact Pool.Inv.setPc (s := { s with quiet := true }) (PI.set' h ho (fun _ => ⟨h1, h2⟩) trivial (fun _ => by simp only; rw [h1]; exact h2))
    simp only [Pool.exec, Pool.step] at he
    split at he
    · cases he
    · -- load
      rename_i i c hp
      rw [hp] at hph
      cases c with
      | user =>
        have ha : (s.th t).pc.admin = false := by rw [hp]; rfl
        split at he
        · rename_i hi
          split at he
          · cases he; exact ⟨taken, .setPc (PI.user h ha rfl trivial)⟩
          · cases he; exact ⟨taken, .setPc (PI.user h ha rfl hi)⟩
        · cases he; exact ⟨taken, .setPc (PI.user h ha rfl trivial)⟩
      | stop left len =>
        have ha : (s.th t).pc.admin = true := by rw [hp]; rfl
        split at he
        · rename_i hi
          split at he
          · cases he; exact ⟨taken, .setPc (PI.set' h (ho ha) (PI.quietOk h) hph (fun e => by cases e))⟩
          · cases he; exact ⟨taken, .setPc (PI.set' h (ho ha) (PI.quietOk h) ⟨hi, hph⟩ (fun e => by cases e))⟩
        · cases he; exact ⟨taken, .setPc (PI.set' h (ho ha) (PI.quietOk h) hph (fun e => by cases e))⟩
    · -- cas
      rename_i i c hp
      rw [hp] at hph
      cases c with
      | user =>
        have ha : (s.th t).pc.admin = false := by rw [hp]; rfl
        split at he
        · cases he; exact ⟨taken, .setPc (PI.user h ha rfl trivial)⟩
        · rename_i hb
          cases he
          have h1 := PI.user (PI.got h (t := t) (i := i) hph (by simpa using hb)) (t := t) (x := .idle) ha rfl trivial
          refine ⟨taken, ?_⟩
          unfold Pool.Inv Pool.got
          have e1 : (fun u => (upd s.th t { held := i :: (s.th t).held, pc := .idle } u).held) =
              upd (fun u => (s.th u).held) t (i :: (s.th t).held) := by
            funext u; by_cases e : u = t
            · subst e; simp
            · simp [upd_of_ne _ _ e]
          have e2 : (fun u => (upd s.th t { held := i :: (s.th t).held, pc := .idle } u).pc) = upd (fun u => (s.th u).pc) t .idle := by
            funext u; by_cases e : u = t
            · subst e; simp
            · simp [upd_of_ne _ _ e]
          simp only [e1, e2]
          exact h1
      | stop left len =>
        have ha : (s.th t).pc.admin = true := by rw [hp]; rfl
        split at he
        · cases he; exact ⟨taken, .setPc (PI.set' h (ho ha) (PI.quietOk h) hph.2 (fun e => by cases e))⟩
        · rename_i hb
          cases he
          obtain ⟨p1, p2, p3, p4⟩ := hph
          have hn : ¬ (i ∈ taken ∨ ∃ t, i ∈ (s.th t).held) := fun h' => hb ((PI.busyIff h i).2 h')
          -- the pool after the compare-and-swap, with the old control state
          have nd : (i :: taken).Nodup := List.nodup_cons.2 ⟨fun h' => hn (.inl h'), PI.nd h⟩
          have lt : ∀ {j}, j ∈ i :: taken → j < s.n := by
            intro j hj
            rcases List.mem_cons.1 hj with rfl | hj
            · exact p1
            · exact PI.lt h hj
          have hb' : ∀ j, upd s.busy i true j = true ↔ j ∈ i :: taken ∨ ∃ t, j ∈ (s.th t).held := by
            intro j
            by_cases e : j = i
            · subst e; rw [upd_same]; exact ⟨fun _ => .inl List.mem_cons_self, fun _ => rfl⟩
            · rw [upd_of_ne _ _ e, PI.busyIff h j]
              refine or_congr_left ⟨fun h' => List.mem_cons_of_mem _ h', fun h' => (List.mem_cons.1 h').resolve_left e⟩
          have hh : ∀ {t j}, j ∈ (s.th t).held → j ∉ i :: taken := by
            intro t1 j hj h'
            rcases List.mem_cons.1 h' with rfl | h'
            · exact hn (.inr ⟨_, hj⟩)
            · exact (PI.heldOk h hj).2.1 h'
          refine ⟨i :: taken, ?_⟩
          cases left with
          | zero =>
            unfold Pool.got Pool.stopDone
            cases len with
            | true =>
              exact Pool.Inv.setPc (s := { s with busy := upd s.busy i true }) (PI.set h (ho ha) nd lt hb' hh
                (fun e => by rw [p4] at e; cases e) ⟨p2, by simp only [List.length_cons]; omega, p4⟩ (fun e => by cases e))
            | false =>
              have hlen : (i :: taken).length = s.n := by simp only [List.length_cons]; omega
              exact Pool.Inv.setPc (s := { s with busy := upd s.busy i true, quiet := true }) (PI.set h (ho ha) nd lt hb' hh
                (fun _ => ⟨p2, hlen⟩) trivial (fun _ => by simp only; rw [p2]; exact hlen))
          | succ left =>
            exact Pool.Inv.setPc (s := { s with busy := upd s.busy i true }) (PI.set h (ho ha) nd lt hb' hh
              (fun e => by rw [p4] at e; cases e) ⟨p2, by simp only [List.length_cons]; omega, p4⟩ (fun e => by cases e))
    · -- stop
      rename_i len hp
      rw [hp] at hph
      have ha : (s.th t).pc.admin = true := by rw [hp]; rfl
      split at he
      · rename_i hs
        cases he
        rcases hph with ⟨p1, _, _⟩ | ⟨p1, p2, p3⟩
        · rw [hs] at p1; cases p1
        · exact ⟨taken, done s len h (ho ha) hs p3 (fun e => by rw [p1] at e; cases e)⟩
      · rename_i hs
        rcases hph with ⟨p1, p2, p3⟩ | ⟨_, p2, _⟩
        · split at he
          · rename_i hn
            cases he
            refine ⟨taken, ?_⟩
            have hl : taken.length = s.n := by rw [p2, hn]; rfl
            unfold Pool.stopDone
            cases len with
            | true =>
              exact Pool.Inv.setPc (s := { s with stopped := true }) (PI.set' h (ho ha) (fun _ => ⟨rfl, hl⟩) ⟨rfl, hl, p3⟩ (fun e => by cases e))
            | false =>
              exact Pool.Inv.setPc (s := { s with stopped := true, quiet := true }) (PI.set' h (ho ha) (fun _ => ⟨rfl, hl⟩) trivial
                (fun _ => hl))
          · rename_i hn
            cases he
            refine ⟨taken, Pool.Inv.setPc (s := { s with stopped := true }) (PI.set' h (ho ha) (fun e => by rw [p3] at e; cases e)
              ⟨rfl, ?_, p3⟩ (fun e => by cases e))⟩
            rw [p2]; simp only [List.length_nil]; omega
        · exact absurd p2 hs
    · -- read
      rename_i hp
      rw [hp] at hph
      have ha : (s.th t).pc.admin = true := by rw [hp]; rfl
      cases he
      exact ⟨taken, .setPc (PI.set' h (ho ha) (PI.quietOk h) ⟨hph.2.2, .inl ⟨hph.1, hph.2.1⟩⟩ (fun e => by cases e))⟩
    · -- start
      rename_i hp
      rw [hp] at hph
      have ha : (s.th t).pc.admin = true := by rw [hp]; rfl
      obtain ⟨p1, p2⟩ := hph
      split at he
      · rename_i hs
        cases he
        have p3 : taken.length = s.n := by
          rcases p2 with p2 | p2
          · exact p2.2
          · rw [hs] at p2; cases p2.1
        refine ⟨taken, Pool.Inv.setPc (s := { s with stopped := false }) ?_⟩
        by_cases hn : s.n = 0
        · have ht : taken = [] := List.eq_nil_of_length_eq_zero (by omega)
          simp only [if_pos hn]
          exact PI.set' h (ho ha) (fun e => by rw [p1] at e; cases e) trivial (fun _ => ht)
        · simp only [if_neg hn]
          refine PI.set' h (ho ha) (fun e => by rw [p1] at e; cases e) ⟨p1, rfl, by omega, fun j => ?_⟩ (fun e => by cases e)
          exact ⟨fun hj => ⟨by omega, PI.lt h hj⟩, fun hj => PI.all h p3 hj.2⟩
      · rename_i hs
        cases he
        have p3 : taken = [] := by
          rcases p2 with p2 | p2
          · exact absurd p2.1 hs
          · exact p2.2
        have hs' : s.stopped = false := by simpa using hs
        exact ⟨taken, .setPc (PI.set' h (ho ha) (PI.quietOk h) trivial (fun _ => by rw [hs']; exact p3))⟩
    · -- puts
      rename_i i hp
      rw [hp] at hph
      have ha : (s.th t).pc.admin = true := by rw [hp]; rfl
      obtain ⟨p1, p2, p3, p4⟩ := hph
      cases he
      have hm : i ∈ taken := (p4 i).2 ⟨Nat.le_refl _, p3⟩
      have hme : ∀ j, j ∈ taken.erase i ↔ i + 1 ≤ j ∧ j < s.n := by
        intro j
        constructor
        · intro hj
          have hj1 := (p4 j).1 (List.mem_of_mem_erase hj)
          have hj2 : j ≠ i := fun e => by subst e; exact List.Nodup.not_mem_erase (PI.nd h) hj
          omega
        · intro hj
          exact (List.mem_erase_of_ne (by omega)).2 ((p4 j).2 ⟨by omega, hj.2⟩)
      have nd : (taken.erase i).Nodup := (PI.nd h).erase i
      have lt : ∀ {j}, j ∈ taken.erase i → j < s.n := fun hj => PI.lt h (List.mem_of_mem_erase hj)
      have hb' : ∀ j, upd s.busy i false j = true ↔ j ∈ taken.erase i ∨ ∃ t, j ∈ (s.th t).held := by
        intro j
        by_cases e : j = i
        · subst e
          rw [upd_same]
          refine ⟨fun e => (by cases e), ?_⟩
          rintro (h' | ⟨t1, h'⟩)
          · exact absurd h' (List.Nodup.not_mem_erase (PI.nd h))
          · exact absurd hm (PI.heldOk h h').2.1
        · rw [upd_of_ne _ _ e, PI.busyIff h j]
          exact or_congr_left (List.mem_erase_of_ne e).symm
      have hh : ∀ {t j}, j ∈ (s.th t).held → j ∉ taken.erase i := fun hj h' => (PI.heldOk h hj).2.1 (List.mem_of_mem_erase h')
      refine ⟨taken.erase i, Pool.Inv.setPc (s := { s with busy := upd s.busy i false }) ?_⟩
      by_cases hn : i + 1 < s.n
      · simp only [if_pos hn]
        exact PI.set h (ho ha) nd lt hb' hh (fun e => by rw [p1] at e; cases e) ⟨p1, p2, hn, hme⟩ (fun e => by cases e)
      · simp only [if_neg hn]
        refine PI.set h (ho ha) nd lt hb' hh (fun e => by rw [p1] at e; cases e) trivial (fun _ => ?_)
        simp only [p2]
        apply List.eq_nil_iff_forall_not_mem.2
        intro j hj
        have := (hme j).1 hj
        omega

theorem Pool.stopDone_n (s : Pool) (t : Nat) (len : Bool) : (s.stopDone t len).n = s.n := by
  cases len <;> rfl

theorem Pool.got_n (s : Pool) (t i : Nat) (c : GetFor) : (s.got t i c).n = s.n := by
  unfold Pool.got
  split
  · rfl
  · exact s.stopDone_n _ _
  · rfl

theorem Pool.exec_n {s s' : Pool} {act : PAct} (he : s.exec act = some s') : s'.n = s.n := by
  cases act <;> simp only [Pool.exec, Pool.step] at he <;> (repeat' split at he) <;>
    first
      | cases he; done
      | (injection he with he; subst he; first | rfl | exact Pool.stopDone_n _ _ _ | exact Pool.got_n _ _ _ _ | (split <;> first | rfl | exact Pool.stopDone_n _ _ _))

theorem PRun.inv {n : Nat} {s : Pool} (h : PRun n Disciplined s) : (∃ taken, s.Inv taken) ∧ s.n = n := by
  induction h with
  | init =>
    refine ⟨⟨[], ?_⟩, rfl⟩
    exact { nd := List.nodup_nil, lt := fun h => by (cases h), busyIff := fun i => by simp [Pool.new], heldOk := fun h => by simp [Pool.new] at h,
            hnd := fun t => List.nodup_nil, quietOk := fun h => by (cases h), one := fun h => by (cases h), phase := fun t => trivial, rest := fun _ => rfl }
  | step _ hG he ih =>
    obtain ⟨⟨taken, hI⟩, hn⟩ := ih
    refine ⟨hI.exec hG he, ?_⟩
    rw [← hn]
    exact Pool.exec_n he

end Radix
