import Verif.Sys.TornInv
import Verif.Properties.Fine
import Verif.Sys.Narrow
import Verif.Properties.Lost
/-!
# C60: copying a node word by word

`Finalize` copies the words of a node to a new one while other goroutines work.  In `Verif/Model/Torn.lean` every load of a word copied is a step of
its own.
-/
set_option autoImplicit false
namespace Radix

/-- The restriction of C45, which says nothing about the words being copied. -/
def TFine (τ : TSys) : TAct → Prop
  | .load _ _ => True
  | .act act => FCalm τ.f act

/-- C60 in full: in the executions of C45, with the words copied one at a time, the tree contains at every moment what the finished updates and
deletes have put there. -/
def C60_statement (env : Env) : Prop :=
  ∀ τ σ, TRun env TFine τ σ → ∀ k, k ≠ [] → content env.fetch τ.f.sys.st k = σ.map k

section
variable {env : Env} {τ τ' : TSys} {σ : Spec}

/-- C60: if no `deleteLeaf256` (which takes no lock) changes a word another allocator has loaded in order to copy it, copying word by word leads to the
same states as copying at once; so what is shown for these (C45) holds. -/
theorem C60_copied_at_once_partial (h : TRun env TCalm τ σ) : FRun env FCalm τ.f σ := h.fine.1

/-- C60: what has been loaded in order to be copied does not change before the copy is made. -/
theorem C60_words_stay_partial (h : TRun env TCalm τ σ) {a x : Nat} {w : Word} (hx : (x, w) ∈ τ.got a) : τ.f.sys.st.mem x = w :=
  (h.fine.2 a x w hx).2

/-- C60: at every moment the tree contains what the finished updates and deletes have put there. -/
theorem C60_contents_partial (h : TRun env TCalm τ σ) {k : Key} (hk : k ≠ []) : content env.fetch τ.f.sys.st k = σ.map k :=
  C45_contents_partial h.fine.1 hk

/-- C60: each step other than a load is the one of C45. -/
theorem C60_steps_partial (h : TRun env TCalm τ σ) {act : FAct} {ev : Ev} (hall : env.Allowed τ.f.sys act.act) (hc : TCalm τ (.act act))
    (he : texec env.fetch τ (.act act) = some (.ok (τ', ev))) : fexec env.fetch τ.f act = some (.ok (τ'.f, ev)) :=
  (TSys.step_fine h.fine.1 h.fine.2 hall hc he).1

/-- A step that panics does so with what is in memory now, too. -/
theorem TSys.Loaded.panics {act : FAct} {e : Panic} (hl : τ.Loaded) (he : texec env.fetch τ (.act act) = some (.error e)) :
    fexec env.fetch τ.f act = some (.error e) := by
  by_cases hb : ∃ a v, act = .build a v
  · obtain ⟨a, v, rfl⟩ := hb
    have hp : τ.f.withMem (patch τ.f.sys.st.mem (τ.got a)) = τ.f := by
      rw [patch_eq fun x w hx => (hl a x w hx).2]; rfl
    simp only [texec, tbuild, hp] at he
    cases hx : fexec env.fetch τ.f (.build a v) with
    | none => rw [hx] at he; cases he
    | some r =>
      rw [hx] at he
      cases r with
      | error e => cases he; rfl
      | ok r => cases he
  · have e1 : texec env.fetch τ (.act act) = (fexec env.fetch τ.f act).map fun r => do
        let r ← r
        return (⟨r.1, τ.gotAfter act⟩, r.2) := by
      cases act with
      | build a v => exact absurd ⟨a, v, rfl⟩ hb
      | _ => rfl
    rw [e1] at he
    cases hx : fexec env.fetch τ.f act with
    | none => rw [hx] at he; cases he
    | some r =>
      rw [hx] at he
      cases r with
      | error e => cases he; rfl
      | ok r => cases he

/-- C60: a step panics only if no memory block is left, or `Finalize` recycles a node of exactly 258 slots after its change has taken effect. -/
theorem C60_panics_partial (h : TRun env TCalm τ σ) {act : TAct} {e : Panic} (hall : act.allowed env τ) (hc : TCalm τ act)
    (he : texec env.fetch τ act = some (.error e)) :
    ((act = .act .block ∨ ∃ a value, act = .act (.build a value)) ∧ e = .noBlocks) ∨
    (∃ a, act = .act (.tail a) ∧ e = .index ∧ ∃ b tl n, (τ.f.sys.proc a = .upd (.tail b tl) ∨ τ.f.sys.proc a = .del (.tail b tl)) ∧
      tl.free = some (n, 258)) := by
  obtain ⟨hf, hl⟩ := h.fine
  cases act with
  | load a x =>
    simp only [texec] at he
    split at he <;> cases he
  | act act =>
    have he' := hl.panics he
    rcases C45_panics_partial hf hall hc.1 he' with ⟨h1 | ⟨a, v, h1⟩, h2⟩ | ⟨a, h1, h2, h3⟩
    · exact .inl ⟨.inl (by rw [h1]), h2⟩
    · exact .inl ⟨.inr ⟨a, v, by rw [h1]⟩, h2⟩
    · exact .inr ⟨a, by rw [h1], h2, h3⟩

/-- The restriction is met if fewer than 128 bytes follow any beginning of keys: then there are no 256-slot nodes. -/
theorem TRun.narrow (hn : env.Narrow) (h : TRun env TFine τ σ) : TRun env TCalm τ σ := by
  induction h with
  | init n => exact .init n
  | reload _ hs ih => exact .reload ih hs
  | step _ hall hc he ih =>
    refine .step ih hall ?_ he
    rename_i act _ _ _
    cases act with
    | load a x => trivial
    | act act =>
      refine ⟨hc, ?_⟩
      cases act with
      | commit a =>
        simp only
        split
        · rename_i cur cm hp
          intro hk
          obtain ⟨s, h1, h2, _⟩ := C45_simulated_partial ih.fine.1
          exact absurd hk ((h1.narrow hn).locking.2 a cur cm (by rw [h2]; exact hp))
        · trivial
      | _ => trivial

/-- C60 holds for such key sets. -/
theorem C60_narrow_partial (hn : env.Narrow) : C60_statement env := fun _ _ h _ hk => C60_contents_partial (h.narrow hn) hk

/-- The executions of C45 are executions of this system, in which all words are copied in one step. -/
theorem FRun.torn {f : FSys} (h : FRun env FCalm f σ) : TRun env TCalm ⟨f, fun _ => []⟩ σ := by
  induction h with
  | init n => exact .init n
  | reload _ hs ih => exact .reload ih hs
  | step h0 hall hc he ih =>
    rename_i f σ act f' ev
    have hu : ∀ a, upd (fun _ : Nat => ([] : List (Nat × Word))) a [] = fun _ => [] := by
      intro a; funext b; unfold upd; split <;> rfl
    refine .step (act := .act act) ih hall ⟨hc, ?_⟩ ?_
    · cases act with
      | commit a =>
        simp only
        split
        · exact fun _ _ _ _ _ _ => List.not_mem_nil
        · trivial
      | _ => trivial
    · cases act with
      | build a v =>
        have hp : f.withMem (patch f.sys.st.mem []) = f := rfl
        simp only [texec, tbuild, hp]
        rw [he]
        simp [bind, Except.bind, pure, Except.pure, hu, FSys.withMem]
      | quit a =>
        simp only [texec]
        rw [he]
        simp [bind, Except.bind, pure, Except.pure, hu, TSys.gotAfter]
      | _ =>
        simp only [texec]
        rw [he]
        rfl

end

/-! ## An execution -/

/-- A condition that implies `TCalm`. -/
def tcalmB (τ : TSys) : TAct → Bool
  | .load _ _ => true
  | .act act => fcalmB τ.f act &&
    match act with
    | .commit a =>
      match τ.f.sys.proc a with
      | .delB cur _ => decide (cur.op.kind ≠ .deleteLeaf256)
      | _ => true
    | _ => true

theorem tcalmB_sound {env : Env} {τ : TSys} {σ : Spec} {act : TAct} (h : TRun env TCalm τ σ) (hb : tcalmB τ act = true) : TCalm τ act := by
  cases act with
  | load a x => trivial
  | act act =>
    simp only [tcalmB, Bool.and_eq_true] at hb
    refine ⟨fcalmB_sound _ _ _ h.fine.1 hb.1, ?_⟩
    have h2 := hb.2
    cases act with
    | commit a =>
      simp only at h2 ⊢
      split
      · rename_i cur cm hp
        simp only [hp, decide_eq_true_eq] at h2
        exact fun hk => absurd hk h2
      · trivial
    | _ => trivial

/-- Whether a step starts operations on keys of the list only. -/
def TAct.allowedB (l : List Key) (τ : TSys) : TAct → Bool
  | .load _ _ => true
  | .act x => Radix.allowedB l τ.f.sys x.act

/-- Perform the steps, as long as they are possible, allowed and calm. -/
def ttrace (l : List Key) (τ : TSys) (σ : Spec) : List TAct → Option (TSys × Spec)
  | [] => some (τ, σ)
  | act :: acts =>
    if act.allowedB l τ && tcalmB τ act then
      match texec (fun v => l.getD (v.toNat % l.length) []) τ act with
      | some (.ok (τ', ev)) => ttrace l τ' (σ.next ev) acts
      | _ => none
    else none

theorem TRun.trace {l h} : ∀ {acts τ σ τ' σ'}, TRun (Env.ofList l h) TCalm τ σ → ttrace l τ σ acts = some (τ', σ') →
    TRun (Env.ofList l h) TCalm τ' σ'
  | [], τ, σ, τ', σ', hr, ht => by
    simp only [ttrace, Option.some.injEq, Prod.mk.injEq] at ht
    obtain ⟨rfl, rfl⟩ := ht
    exact hr
  | act :: acts, τ, σ, τ', σ', hr, ht => by
    simp only [ttrace] at ht
    split at ht
    · rename_i hb
      simp only [Bool.and_eq_true] at hb
      split at ht
      · rename_i τ1 ev he
        refine TRun.trace (.step hr ?_ (tcalmB_sound hr hb.2) he) ht
        cases act with
        | load a x => trivial
        | act x => exact allowedB_sound hb.1
      · cases ht
    · cases ht

/-- Allocator 1 has prepared the insertion of "c" next to "a" and "b" at the root, and has loaded the word for "a".  Then allocator 0 inserts "aac".
Allocator 1 loads the word for "b", fills its new node and publishes it. -/
def tornActs (x y : Nat) : List TAct :=
  List.map .act (fsetup ++ [.begin 1 (.update [99]), .arm 1] ++ List.replicate 8 (.step 1)) ++ [.load 1 x] ++
  List.map .act ([.begin 0 (.update [97, 97, 99]), .arm 0] ++ List.replicate 19 (.step 0) ++ [.build 0 6, .commit 0, .unlock 0, .unlock 0, .tail 0]) ++
  [.load 1 y]

def tcheck (l : List Key) (n : Nat) (acts : List TAct) (check : TSys → Spec → Bool) : Bool :=
  match ttrace l (TSys.new n) .init acts with
  | some (τ, σ) => check τ σ
  | none => false

theorem TRun.ofCheck {l h n acts check} (hc : tcheck l n acts check = true) : ∃ τ σ, TRun (Env.ofList l h) TCalm τ σ ∧ check τ σ = true := by
  unfold tcheck at hc
  split at hc
  · rename_i τ σ ht
    exact ⟨τ, σ, TRun.trace (.init n) ht, hc⟩
  · cases hc

/-- After the two loads, with the insertion of "aac" in between, the words are as they were loaded, and the copy holds both. -/
example : ∃ τ σ, TRun (Env.ofList raceKeys raceKeys_good) TCalm τ σ ∧ (τ.got 1).map (·.1) = [11, 12] ∧ σ.call 1 = .update [99] ∧
    σ.map [97, 97, 99] = some 6 := by
  obtain ⟨τ, σ, h1, h2⟩ := TRun.ofCheck (h := raceKeys_good) (n := 2) (acts := tornActs 11 12)
    (check := fun τ σ => decide ((τ.got 1).map (·.1) = [11, 12] ∧ σ.call 1 = .update [99] ∧ σ.map [97, 97, 99] = some 6)) (by decide +kernel)
  exact ⟨τ, σ, h1, of_decide_eq_true h2⟩

/-- And then the node is filled and published. -/
example : ∃ τ σ, TRun (Env.ofList raceKeys raceKeys_good) TCalm τ σ ∧ σ.map [99] = some 4 ∧ σ.map [97, 97, 99] = some 6 ∧ σ.map [98] = some 3 ∧
    τ.got 1 = [] := by
  obtain ⟨τ, σ, h1, h2⟩ := TRun.ofCheck (h := raceKeys_good) (n := 2)
    (acts := tornActs 11 12 ++ [.act (.build 1 4), .act (.commit 1), .act (.unlock 1), .act (.tail 1)])
    (check := fun τ σ => decide (σ.map [99] = some 4 ∧ σ.map [97, 97, 99] = some 6 ∧ σ.map [98] = some 3 ∧ τ.got 1 = [])) (by decide +kernel)
  exact ⟨τ, σ, h1, of_decide_eq_true h2⟩

end Radix
