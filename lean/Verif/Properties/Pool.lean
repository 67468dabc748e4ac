import Verif.PoolProof
import Verif.Tree
/-!
# The allocator pool: C27 and C28
-/
set_option autoImplicit false
namespace Radix

/-- Every allocator in use is one of the `n` allocators of the tree, and has one user. -/
def Exclusive (n : Nat) (s : Pool) : Prop :=
  ∀ t i, i ∈ (s.th t).held → i < n ∧ (s.th t).held.count i = 1 ∧ ∀ t', t' ≠ t → i ∉ (s.th t').held

theorem Pool.Inv.exclusive {s : Pool} {taken : List Nat} (h : s.Inv taken) : Exclusive s.n s := by
  intro t i hi
  obtain ⟨h1, _, h3⟩ := PI.heldOk h hi
  refine ⟨h1, ?_, h3⟩
  have h4 := List.nodup_iff_count.1 (PI.hnd h t) i
  have h5 := List.count_pos_iff.2 hi
  have h6 : (s.th t).held.count i ≤ 1 := h4
  omega

theorem PRun.mono {n : Nat} {G G' : Pool → PAct → Prop} {s : Pool} (h : PRun n G s) (hG : ∀ s a, G s a → G' s a) : PRun n G' s := by
  induction h with
  | init => exact .init
  | step _ h1 h2 ih => exact .step ih (hG _ _ h1) h2

theorem PRun.execs {n : Nat} {G : Pool → PAct → Prop} : ∀ {acts : List PAct} {s s' : Pool}, PRun n G s → (∀ a ∈ acts, ∀ s, G s a) →
    s.execs acts = some s' → PRun n G s' := by
  intro acts
  induction acts with
  | nil => intro s s' h _ he; cases he; exact h
  | cons a acts ih =>
    intro s s' h hG he
    simp only [Pool.execs, Option.bind_eq_some_iff] at he
    obtain ⟨s1, h1, h2⟩ := he
    exact ih (.step h (hG a List.mem_cons_self s) h1) (fun b hb => hG b (List.mem_cons_of_mem _ hb)) h2

theorem Pool.execs_append {s s1 s2 : Pool} : ∀ {as bs : List PAct}, s.execs as = some s1 → s1.execs bs = some s2 → s.execs (as ++ bs) = some s2 := by
  intro as
  induction as generalizing s with
  | nil => intro bs h1 h2; cases h1; exact h2
  | cons a as ih =>
    intro bs h1 h2
    simp only [Pool.execs, Option.bind_eq_some_iff, List.cons_append] at h1 ⊢
    obtain ⟨s', h3, h4⟩ := h1
    exact ⟨s', h3, ih h4 h2⟩

/-! ## C27 -/

/-- Only `GetAllocator` and `ReleaseAllocator` are called. -/
def UsersOnly (_ : Pool) : PAct → Prop
  | .beginGet _ => True
  | .release _ _ => True
  | .run _ => True
  | _ => False

theorem UsersOnly.disciplined {s : Pool} {a : PAct} (h : UsersOnly s a) : Disciplined s a := by
  cases a <;> first | trivial | exact h.elim

theorem PRun.users {n : Nat} {s : Pool} (h : PRun n UsersOnly s) : (∀ t, (s.th t).pc.admin = false) ∧ s.stopped = false := by
  induction h with
  | init => exact ⟨fun _ => rfl, rfl⟩
  | @step s act s' _ hG he ih =>
    obtain ⟨h1, h2⟩ := ih
    have set : ∀ (s : Pool) t x, (∀ t, (s.th t).pc.admin = false) → s.stopped = false → x.admin = false →
        (∀ u, ((s.setPc t x).th u).pc.admin = false) ∧ (s.setPc t x).stopped = false := by
      intro s t x h1 h2 hx
      refine ⟨fun u => ?_, h2⟩
      by_cases e : u = t
      · subst e; simpa [Pool.setPc] using hx
      · simpa [Pool.setPc, upd_of_ne _ _ e] using h1 u
    cases act with
    | beginGet t =>
      simp only [Pool.exec] at he
      split at he
      · cases he; exact set s t _ h1 h2 rfl
      · cases he
    | release t i =>
      simp only [Pool.exec] at he
      split at he
      · cases he
        refine ⟨fun u => ?_, h2⟩
        by_cases e : u = t
        · subst e; simpa using h1 u
        · simpa [upd_of_ne _ _ e] using h1 u
      · cases he
    | run t =>
      have ha := h1 t
      simp only [Pool.exec, Pool.step] at he
      split at he
      · cases he
      · rename_i i c hp
        rw [hp] at ha
        cases c with
        | user =>
          split at he
          · split at he
            · cases he; exact set s t _ h1 h2 rfl
            · cases he; exact set s t _ h1 h2 rfl
          · cases he; exact set s t _ h1 h2 rfl
        | stop _ _ => cases ha
      · rename_i i c hp
        rw [hp] at ha
        cases c with
        | user =>
          split at he
          · cases he; exact set s t _ h1 h2 rfl
          · cases he
            refine ⟨fun u => ?_, h2⟩
            by_cases e : u = t
            · subst e; simp [Pool.got, PoolPC.admin]
            · simpa [Pool.got, upd_of_ne _ _ e] using h1 u
        | stop _ _ => cases ha
      all_goals (rename_i hp; rw [hp] at ha; cases ha)
    | beginStop _ => exact hG.elim
    | beginStart _ => exact hG.elim
    | beginLen _ => exact hG.elim

theorem Pool.setPc_setPc (s : Pool) (t : Nat) (x y : PoolPC) : (s.setPc t x).setPc t y = s.setPc t y := by
  simp [Pool.setPc, upd_upd]

/-- `slots.get` finds a free slot, if no other goroutine interferes. -/
theorem Pool.get_alone {t i : Nat} {c : GetFor} : ∀ (d : Nat) {s : Pool} {j : Nat}, i - j = d → j ≤ i → i < s.n → s.busy i = false →
    (s.th t).pc = .load j c →
    ∃ k i', k ≤ d + 2 ∧ i' < s.n ∧ s.busy i' = false ∧
      s.execs (List.replicate k (.run t)) = some ({ s with busy := upd s.busy i' true }.got t i' c) := by
  intro d
  induction d with
  | zero =>
    intro s j hd hj hi hb hp
    have e : j = i := by omega
    subst e
    refine ⟨2, j, by omega, hi, hb, ?_⟩
    have h1 : s.exec (.run t) = some (s.setPc t (.cas j c)) := by
      simp only [Pool.exec, Pool.step, hp, if_pos hi, hb]; rfl
    have h2 : (s.setPc t (.cas j c)).exec (.run t) = some ({ s with busy := upd s.busy j true }.got t j c) := by
      have hq : ((s.setPc t (.cas j c)).th t).pc = .cas j c := by simp [Pool.setPc]
      have hb' : (s.setPc t (.cas j c)).busy j = false := hb
      simp only [Pool.exec, Pool.step, hq, hb']
      rcases c with _ | ⟨left, len⟩
      · simp [Pool.got, Pool.setPc, upd_upd]
      · cases left
        · cases len <;> simp [Pool.got, Pool.stopDone, Pool.setPc, upd_upd]
        · simp [Pool.got, Pool.setPc, upd_upd]
    simp [Pool.execs, List.replicate, h1, h2]
  | succ d ih =>
    intro s j hd hj hi hb hp
    cases hbj : s.busy j with
    | false =>
      have hjn : j < s.n := by omega
      refine ⟨2, j, by omega, hjn, hbj, ?_⟩
      have h1 : s.exec (.run t) = some (s.setPc t (.cas j c)) := by
        simp only [Pool.exec, Pool.step, hp, if_pos hjn, hbj]; rfl
      have h2 : (s.setPc t (.cas j c)).exec (.run t) = some ({ s with busy := upd s.busy j true }.got t j c) := by
        have hq : ((s.setPc t (.cas j c)).th t).pc = .cas j c := by simp [Pool.setPc]
        have hb' : (s.setPc t (.cas j c)).busy j = false := hbj
        simp only [Pool.exec, Pool.step, hq, hb']
        rcases c with _ | ⟨left, len⟩
        · simp [Pool.got, Pool.setPc, upd_upd]
        · cases left
          · cases len <;> simp [Pool.got, Pool.stopDone, Pool.setPc, upd_upd]
          · simp [Pool.got, Pool.setPc, upd_upd]
      simp [Pool.execs, List.replicate, h1, h2]
    | true =>
      have hjn : j < s.n := by omega
      have h1 : s.exec (.run t) = some (s.setPc t (.load (j + 1) c)) := by
        simp only [Pool.exec, Pool.step, hp, if_pos hjn, hbj, if_true]
      obtain ⟨k, i', g1, g2, g3, g4⟩ := ih (s := s.setPc t (.load (j + 1) c)) (j := j + 1) (by omega) (by omega) hi hb (by simp [Pool.setPc])
      refine ⟨k + 1, i', by omega, g2, g3, ?_⟩
      simp only [List.replicate, Pool.execs, h1, Option.bind_some]
      rw [g4]
      rcases c with _ | ⟨left, len⟩
      · simp [Pool.got, Pool.setPc, upd_upd]
      · cases left
        · cases len <;> simp [Pool.got, Pool.stopDone, Pool.setPc, upd_upd]
        · simp [Pool.got, Pool.setPc, upd_upd]

/-- **C27** (first part).  At every moment of every execution of calls of `GetAllocator` and `ReleaseAllocator`, by any number of
goroutines, every allocator in use has one user. -/
theorem C27_one_user {n : Nat} {s : Pool} (h : PRun n UsersOnly s) : Exclusive n s := by
  obtain ⟨⟨taken, hI⟩, hn⟩ := (h.mono fun _ _ => UsersOnly.disciplined).inv
  rw [← hn]
  exact hI.exclusive

/-- **C27** (second part).  If some allocator `i` is not in use, a goroutine which calls `GetAllocator` and is not disturbed
obtains an allocator which was not in use, in at most `n + 1` steps.  (If `i` is the only one not in use, it obtains `i`.) -/
theorem C27_released_can_be_obtained {n : Nat} {s : Pool} (h : PRun n UsersOnly s) {t i : Nat} (hp : (s.th t).pc = .idle) (hi : i < n)
    (hfree : ∀ u, i ∉ (s.th u).held) :
    ∃ k j s', k ≤ n + 1 ∧ s.execs (.beginGet t :: List.replicate k (.run t)) = some s' ∧ (s'.th t).held = j :: (s.th t).held ∧
      (s'.th t).pc = .idle ∧ j < n ∧ ∀ u, j ∉ (s.th u).held := by
  obtain ⟨⟨taken, hI⟩, hn⟩ := (h.mono fun _ _ => UsersOnly.disciplined).inv
  have hr := PI.rest hI h.users.1
  rw [h.users.2] at hr
  have ht : taken = [] := hr
  have free : ∀ i, s.busy i = false ↔ ∀ u, i ∉ (s.th u).held := by
    intro i
    have hb := PI.busyIff hI i
    rw [ht] at hb
    constructor
    · intro h1 u h2
      rw [hb.2 (.inr ⟨u, h2⟩)] at h1
      cases h1
    · intro h1
      cases hc : s.busy i with
      | false => rfl
      | true =>
        rcases hb.1 hc with h2 | ⟨u, h2⟩
        · cases h2
        · exact absurd h2 (h1 u)
  have h1 : s.exec (.beginGet t) = some (s.setPc t (.load 0 .user)) := by simp only [Pool.exec, if_pos hp]
  obtain ⟨k, j, g1, g2, g3, g4⟩ := Pool.get_alone (t := t) (c := .user) i (s := s.setPc t (.load 0 .user)) (j := 0) (by omega) (by omega)
    (show i < s.n by omega) ((free i).2 hfree) (by simp [Pool.setPc])
  have g5 : s.execs (.beginGet t :: List.replicate k (.run t)) = (s.setPc t (.load 0 .user)).execs (List.replicate k (.run t)) := by
    simp only [Pool.execs, h1, Option.bind_some]
  refine ⟨k, j, _, by omega, g5.trans g4, ?_, ?_, ?_, (free j).1 g3⟩
  · simp [Pool.got, Pool.setPc]
  · simp [Pool.got]
  · have : j < s.n := g2
    omega

/-- The state after steps which are all possible. -/
def Pool.after (s : Pool) (acts : List PAct) : Pool := (s.execs acts).getD s

theorem Pool.execs_after {s : Pool} {acts : List PAct} (h : (s.execs acts).isSome) : s.execs acts = some (s.after acts) := by
  unfold Pool.after
  cases he : s.execs acts with
  | none => rw [he] at h; cases h
  | some s' => rfl

/-- Two allocators, both in use; the first goroutine releases slot 0 and a third one obtains it. -/
def poolDemo : List PAct := [.beginGet 0, .beginGet 1, .run 0, .run 1, .run 1, .run 0, .run 0, .run 0, .release 1 0]

example : ((Pool.new 2).execs poolDemo).map (fun s => ((s.th 0).held, (s.th 1).held, s.busy 0, s.busy 1)) = some ([1], [], false, true) := by decide

example : ∃ s, PRun 2 UsersOnly s ∧ (s.th 0).held = [1] ∧ (s.th 7).pc = .idle ∧ (∀ u, 0 ∉ (s.th u).held) := by
  refine ⟨(Pool.new 2).after poolDemo, PRun.execs .init (by simp [poolDemo, UsersOnly]) (Pool.execs_after (by decide)), by decide, by decide, ?_⟩
  intro u
  by_cases h0 : u = 0
  · subst h0; decide
  · by_cases h1 : u = 1
    · subst h1; decide
    · have e : ((Pool.new 2).after poolDemo).th u = {} := by
        simp [Pool.after, poolDemo, Pool.execs, Pool.exec, Pool.step, Pool.new, Pool.setPc, Pool.got, upd, h0, h1]
      rw [e]
      simp

/-! ## C28 -/

/-- **C28**, as stated: allocators are exclusive in every execution, and after `Stop` nobody uses an allocator until `Start`. -/
def C28_statement : Prop :=
  ∀ (n : Nat) (s : Pool), PRun n (fun _ _ => True) s → Exclusive n s ∧ (s.quiet = true → ∀ t, (s.th t).held = [])

/-- `Len` and `Stop` at the same time: goroutine 3 uses slot 1; goroutine 1 calls `Stop` and has taken slot 0; goroutine 2 calls
`Len`, whose `Stop` returns at once, and whose `Start` puts back all slots; goroutine 4 obtains slot 1. -/
def poolRace : List PAct :=
  [.beginGet 3, .run 3, .run 3, .beginGet 5, .run 5, .run 5, .run 5, .release 3 0, .beginStop 1, .run 1, .run 1, .run 1,
   .beginLen 2, .run 2, .run 2, .run 2, .run 2, .run 2, .beginGet 4, .run 4, .run 4, .beginGet 4, .run 4, .run 4, .run 4]

/-- `Len` on a stopped tree restarts it: goroutine 2 uses an allocator although `Stop` of goroutine 1 returned and nobody called
`Start`. -/
def poolLen : List PAct :=
  [.beginStop 1, .run 1, .run 1, .run 1, .beginLen 3, .run 3, .run 3, .run 3, .run 3, .beginGet 2, .run 2, .run 2]

/-- A second `Stop` returns at once, while goroutine 3 still uses an allocator. -/
def poolStop : List PAct := [.beginGet 3, .run 3, .run 3, .beginStop 1, .run 1, .beginStop 2, .run 2]

/-- The statement does not hold: two goroutines use slot 1. -/
theorem C28_does_not_hold : ¬ C28_statement := by
  intro h
  have h1 := (h 2 _ (PRun.execs .init (fun _ _ _ => trivial) (Pool.execs_after (s := Pool.new 2) (acts := poolRace) (by decide)))).1 5 1 (by decide)
  exact absurd (by decide) (h1.2.2 4 (by decide))

/-- The second half fails too, when `Len` is called on a stopped tree (one allocator, three goroutines, no overlapping calls). -/
theorem C28_len_restarts : ∃ s, PRun 1 (fun _ _ => True) s ∧ s.quiet = true ∧ (s.th 2).held = [0] := by
  exact ⟨_, PRun.execs .init (fun _ _ _ => trivial) (Pool.execs_after (s := Pool.new 1) (acts := poolLen) (by decide)), by decide, by decide⟩

/-- And when `Stop` is called twice at the same time. -/
theorem C28_second_stop : ∃ s, PRun 1 (fun _ _ => True) s ∧ s.quiet = true ∧ (s.th 3).held = [0] := by
  exact ⟨_, PRun.execs .init (fun _ _ _ => trivial) (Pool.execs_after (s := Pool.new 1) (acts := poolStop) (by decide)), by decide, by decide⟩

/-- **C28** for executions in which calls of `Stop`, `Start` and `Len` do not overlap and `Len` is not called on a stopped tree; the
calls of `GetAllocator` and `ReleaseAllocator` are not restricted.  Missing: the restriction is needed, see above. -/
theorem C28_stop_is_exclusive_partial {n : Nat} {s : Pool} (h : PRun n Disciplined s) :
    Exclusive n s ∧ (s.quiet = true → ∀ t, (s.th t).held = []) := by
  obtain ⟨⟨taken, hI⟩, hn⟩ := h.inv
  refine ⟨by rw [← hn]; exact hI.exclusive, fun hq t => ?_⟩
  exact PI.none_held hI (PI.quietOk hI hq).2 t

/-- `quiet` is set when `Stop` returns, and kept until a call of `Start` begins. -/
theorem C28_quiet_until_start {s s' : Pool} {act : PAct} (he : s.exec act = some s') (hq : s.quiet = true) (ha : ∀ t, act ≠ .beginStart t) :
    s'.quiet = true := by
  have sd : ∀ (s : Pool) t len, s.quiet = true → (s.stopDone t len).quiet = true := by
    intro s t len h; cases len
    · rfl
    · exact h
  have gd : ∀ (s : Pool) t i c, s.quiet = true → (s.got t i c).quiet = true := by
    intro s t i c h
    unfold Pool.got
    split
    · exact h
    · exact sd _ _ _ h
    · exact h
  cases act with
  | beginStart t => exact absurd rfl (ha t)
  | run t =>
    simp only [Pool.exec, Pool.step] at he
    (repeat' split at he) <;>
      first
        | cases he; done
        | (injection he with he; subst he
           first | exact hq | exact sd _ _ _ hq | exact gd _ _ _ _ hq | (split <;> first | exact hq | exact sd _ _ _ hq))
  | _ =>
    simp only [Pool.exec] at he
    split at he
    · injection he with he; subst he; exact hq
    · cases he

/-- A list which contains all numbers below `n` has at least `n` elements. -/
theorem length_of_all : ∀ (n : Nat) {l : List Nat}, (∀ i, i < n → i ∈ l) → n ≤ l.length := by
  intro n
  induction n with
  | zero => intro l _; omega
  | succ n ih =>
    intro l h
    have h1 := ih (l := l.erase n) fun i hi => (List.mem_erase_of_ne (by omega)).2 (h i (by omega))
    have h2 := h n (by omega)
    rw [List.length_erase_of_mem h2] at h1
    have h3 := List.length_pos_of_mem h2
    omega

/-- The rest of `Stop`, if no allocator is in use. -/
theorem Pool.stop_alone {n t : Nat} : ∀ (left : Nat) {s : Pool}, PRun n Disciplined s → (s.th t).pc = .load 0 (.stop left false) →
    (∀ u, (s.th u).held = []) →
    ∃ k s', s.execs (List.replicate k (.run t)) = some s' ∧ (s'.th t).pc = .idle ∧ s'.stopped = true ∧ s'.quiet = true := by
  intro left
  induction left with
  | zero =>
    intro s h hp hh
    obtain ⟨⟨taken, hI⟩, hn⟩ := h.inv
    have hph : s.stopped = true ∧ taken.length + 0 + 1 = s.n ∧ s.quiet = false := by have := PI.phase hI t; rw [hp] at this; exact this
    have hex : ∃ i, i < s.n ∧ i ∉ taken := by
      apply Classical.byContradiction
      intro hc
      have := length_of_all s.n (l := taken) fun i hi => Classical.byContradiction fun h' => hc ⟨i, hi, h'⟩
      omega
    obtain ⟨i, hi, hti⟩ := hex
    have hb : s.busy i = false := by
      cases hb : s.busy i with
      | false => rfl
      | true =>
        rcases (PI.busyIff hI i).1 hb with h' | ⟨u, h'⟩
        · exact absurd h' hti
        · simp only [hh u] at h'; cases h'
    obtain ⟨k, i', _, _, _, g⟩ := Pool.get_alone (t := t) i (s := s) (j := 0) (by omega) (by omega) hi hb hp
    refine ⟨k, _, g, ?_, ?_, rfl⟩
    · simp [Pool.got, Pool.stopDone, Pool.setPc]
    · exact hph.1
  | succ left ih =>
    intro s h hp hh
    obtain ⟨⟨taken, hI⟩, hn⟩ := h.inv
    have hph : s.stopped = true ∧ taken.length + (left + 1) + 1 = s.n ∧ s.quiet = false := by have := PI.phase hI t; rw [hp] at this; exact this
    have hex : ∃ i, i < s.n ∧ i ∉ taken := by
      apply Classical.byContradiction
      intro hc
      have := length_of_all s.n (l := taken) fun i hi => Classical.byContradiction fun h' => hc ⟨i, hi, h'⟩
      omega
    obtain ⟨i, hi, hti⟩ := hex
    have hb : s.busy i = false := by
      cases hb : s.busy i with
      | false => rfl
      | true =>
        rcases (PI.busyIff hI i).1 hb with h' | ⟨u, h'⟩
        · exact absurd h' hti
        · simp only [hh u] at h'; cases h'
    obtain ⟨k, i', _, _, _, g⟩ := Pool.get_alone (t := t) i (s := s) (j := 0) (by omega) (by omega) hi hb hp
    have h1 : PRun n Disciplined _ := PRun.execs h (fun a ha s => by rw [List.eq_of_mem_replicate ha]; trivial) g
    obtain ⟨k2, s', g2, g3⟩ := ih h1 (by simp [Pool.got, Pool.setPc]) (by
      intro u
      by_cases e : u = t
      · subst e; simpa [Pool.got, Pool.setPc] using hh u
      · simpa [Pool.got, Pool.setPc, upd_of_ne _ _ e] using hh u)
    refine ⟨k + k2, s', ?_, g3⟩
    rw [← List.replicate_append_replicate]
    exact Pool.execs_append g g2

/-- `Stop` returns once all allocators have been released, if it is not disturbed. -/
theorem C28_stop_returns {n : Nat} {s : Pool} (h : PRun n Disciplined s) {t : Nat} (ha : ∀ u, (s.th u).pc.admin = false)
    (hp : (s.th t).pc = .idle) (hh : ∀ u, (s.th u).held = []) :
    ∃ k s', s.execs (.beginStop t :: List.replicate k (.run t)) = some s' ∧ (s'.th t).pc = .idle ∧ s'.stopped = true ∧ s'.quiet = true := by
  have hn := h.inv.2
  have h1 : s.exec (.beginStop t) = some (s.setPc t (.stop false)) := by simp only [Pool.exec, if_pos hp]
  have hp1 : ((s.setPc t (.stop false)).th t).pc = .stop false := by simp [Pool.setPc]
  by_cases hs : s.stopped = true
  · refine ⟨1, (s.setPc t (.stop false)).stopDone t false, ?_, by simp [Pool.stopDone, Pool.setPc], hs, rfl⟩
    have hs' : (s.setPc t (.stop false)).stopped = true := hs
    have h2 : (s.setPc t (.stop false)).exec (.run t) = some ((s.setPc t (.stop false)).stopDone t false) := by
      simp only [Pool.exec, Pool.step, hp1, if_pos hs']
    simp [Pool.execs, List.replicate, h1, h2]
  · have hs' : ¬ (s.setPc t (.stop false)).stopped = true := hs
    by_cases h0 : s.n = 0
    · have h0' : (s.setPc t (.stop false)).n = 0 := h0
      have h2 : (s.setPc t (.stop false)).exec (.run t) = some (({ s.setPc t (.stop false) with stopped := true } : Pool).stopDone t false) := by
        simp only [Pool.exec, Pool.step, hp1, if_neg hs', if_pos h0']
      refine ⟨1, ({ s.setPc t (.stop false) with stopped := true } : Pool).stopDone t false, ?_, ?_, ?_, ?_⟩
      · simp [Pool.execs, List.replicate, h1, h2]
      · simp [Pool.stopDone, Pool.setPc]
      · rfl
      · rfl
    · have h0' : ¬ (s.setPc t (.stop false)).n = 0 := h0
      have h2 : (s.setPc t (.stop false)).exec (.run t) =
          some (({ s.setPc t (.stop false) with stopped := true } : Pool).setPc t (.load 0 (.stop (s.n - 1) false))) := by
        simp only [Pool.exec, Pool.step, hp1, if_neg hs', if_neg h0']; rfl
      have hr : PRun n Disciplined (({ s.setPc t (.stop false) with stopped := true } : Pool).setPc t (.load 0 (.stop (s.n - 1) false))) :=
        .step (.step h (act := .beginStop t) ha h1) (act := .run t) trivial h2
      obtain ⟨k, s', g1, g2⟩ := Pool.stop_alone (t := t) (s.n - 1) hr (by simp [Pool.setPc]) (by
        intro u
        by_cases e : u = t
        · subst e; simpa [Pool.setPc] using hh u
        · simpa [Pool.setPc, upd_of_ne _ _ e] using hh u)
      refine ⟨k + 1, s', ?_, g2⟩
      simp only [List.replicate, Pool.execs, h1, h2, Option.bind_some]
      exact g1

/-- Two allocators: goroutine 0 obtains one, `Stop` of goroutine 1 takes the other one, waits, and returns after the release. -/
def poolStopDemo : List PAct :=
  [.beginGet 0, .run 0, .run 0, .beginStop 1, .run 1, .run 1, .run 1, .run 1, .run 1, .run 1, .release 0 0, .run 1, .run 1, .run 1]

example : ∃ s, PRun 2 Disciplined s ∧ s.quiet = true ∧ s.busy 0 = true ∧ s.busy 1 = true := by
  have r1 := PRun.execs (G := Disciplined) (n := 2) .init (by simp [poolStopDemo, Disciplined])
    (Pool.execs_after (s := Pool.new 2) (acts := poolStopDemo.take 3) (by decide))
  have h2 : ∀ t, (((Pool.new 2).after (poolStopDemo.take 3)).th t).pc.admin = false := by
    intro t
    by_cases h0 : t = 0
    · subst h0; decide
    · simp [Pool.after, poolStopDemo, Pool.execs, Pool.exec, Pool.step, Pool.new, Pool.setPc, Pool.got, upd, h0, PoolPC.admin]
  have r2 := PRun.step r1 (act := .beginStop 1) (s' := ((Pool.new 2).after (poolStopDemo.take 3)).setPc 1 (.stop false)) h2 (by
    simp only [Pool.exec]; rw [if_pos (by decide)])
  have r3 := PRun.execs (G := Disciplined) (n := 2) r2 (by simp [poolStopDemo, Disciplined])
    (Pool.execs_after (s := ((Pool.new 2).after (poolStopDemo.take 3)).setPc 1 (.stop false)) (acts := poolStopDemo.drop 4) (by decide))
  exact ⟨_, r3, by decide, by decide, by decide⟩

end Radix
