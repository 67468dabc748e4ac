import Verif.Properties.Torn
import Verif.Properties.Two
/-!
# C62: two updates at a time, with every load of a word copied as a step

C47 with the steps of C60: no restriction is left but the one on the number of operations under way.
-/
set_option autoImplicit false
namespace Radix

/-- An update begins only when at most one other update and no delete is under way; a delete begins only when no update or delete is under way.
The words to be copied are loaded at any time. -/
def TTwoUpdates (τ : TSys) : TAct → Prop
  | .load _ _ => True
  | .act act => FTwoUpdates τ.f act

section
variable {env : Env} {τ τ' : TSys} {σ : Spec}

theorem Proc.copies_writer {p : Proc} {x : Nat} (h : p.copies x) : p.writer = true ∧ ∀ cur cm, p ≠ .delB cur cm := by
  unfold Proc.copies Proc.source at h
  split at h
  · exact ⟨rfl, fun _ _ e => by cases e⟩
  · exact ⟨rfl, fun _ _ e => by cases e⟩
  · omega

/-- While a delete publishes its change nobody else copies. -/
theorem FRel.twoApart {f : FSys} {s : Sys} {t : T} {seen : Nat → T → Prop} (h : FRel env TwoUpdates f s σ t seen) {a b x : Nat} {cur : DelCur}
    {cm : Commit} (hp : f.sys.proc a = .delB cur cm) (hx : (f.sys.proc b).copies x) : False := by
  obtain ⟨hw, hn⟩ := Proc.copies_writer hx
  obtain ⟨_, _, _, _, hM⟩ := h.run.twoUpdates
  rw [h.proc] at hp hw hn
  rcases hM with ⟨_, hd, _⟩ | ⟨hS, _⟩
  · have := hd a
    rw [hp] at this
    cases this
  · have := hS.one a b (by rw [hp]; rfl) hw
    subst this
    exact hn _ _ hp

theorem TRun.two (h : TRun env TTwoUpdates τ σ) : FRun env FTwoUpdates τ.f σ ∧ τ.Loaded := by
  induction h with
  | init n => exact ⟨.init n, fun _ _ _ h => absurd h List.not_mem_nil⟩
  | reload _ hs ih => exact ⟨.reload ih.1 hs, fun _ _ _ h => absurd h List.not_mem_nil⟩
  | step _ hall hc he ih =>
    rename_i act _ ev _
    cases act with
    | act act =>
      obtain ⟨s, t, seen, hF⟩ := ih.1.two
      obtain ⟨h1, h2⟩ := TSys.step_rel hF.weaken ih.2 hall
        (fun {b x w} hx a cur cm _ hp _ _ _ => hF.twoApart hp (ih.2 b x w hx).1) he
      exact ⟨.step ih.1 hall hc h1, h2⟩
    | load a x =>
      obtain ⟨h1, rfl, h3⟩ := TSys.load_loaded ih.2 he
      exact ⟨by rw [h1]; exact ih.1, h3⟩

/-- C62: copying word by word leads to the same states as copying at once. -/
theorem C62_copied_at_once (h : TRun env TTwoUpdates τ σ) : FRun env FTwoUpdates τ.f σ := h.two.1

/-- C62: what has been loaded in order to be copied does not change before the copy is made. -/
theorem C62_words_stay (h : TRun env TTwoUpdates τ σ) {a x : Nat} {w : Word} (hx : (x, w) ∈ τ.got a) : τ.f.sys.st.mem x = w :=
  (h.two.2 a x w hx).2

/-- C62: at every moment the tree contains what the finished updates and deletes have put there. -/
theorem C62_contents (h : TRun env TTwoUpdates τ σ) {k : Key} (hk : k ≠ []) : content env.fetch τ.f.sys.st k = σ.map k :=
  C47_contents h.two.1 hk

/-- C62: the result of a lookup. -/
theorem C62_lookup_answers (h : TRun env TTwoUpdates τ σ) {a : Nat} {key k : Key} {res : Option Word} (hc : σ.call a = .lookup key)
    (hp : τ.f.sys.proc a = .rd (.done k res)) : LookupCorrect env σ a key res := C47_lookup_answers h.two.1 hc hp

/-- C62: the result of `PrepareUpdate`. -/
theorem C62_update_answers (h : TRun env TTwoUpdates τ σ) {a : Nat} {key : Key} {found : Bool} {op : UpdOp}
    (hc : σ.call a = .update key) (hp : τ.f.sys.proc a = .upd (.held found op)) :
    (found = false → σ.map key = none) ∧
    (found = true → (∃ M ∈ σ.window a, ∃ k', M k' = some op.value ∧ env.fetch op.value = k') ∧ ∀ v, σ.map key = some v → op.value = v) :=
  C47_update_answers h.two.1 hc hp

/-- C62: the result of `PrepareDelete`. -/
theorem C62_delete_answers (h : TRun env TTwoUpdates τ σ) {a : Nat} {key : Key} (hc : σ.call a = .delete key) :
    (∀ k, τ.f.sys.proc a = .del (.miss k) → ∃ M ∈ σ.window a, M key = none) ∧
    (∀ cur, τ.f.sys.proc a = .del (.held cur) → ∃ M ∈ σ.window a, ∃ k', M k' = some cur.op.value ∧ env.fetch cur.op.value = k' ∧
      ((∀ M ∈ σ.window a, M key ≠ none) → k' = key)) := C47_delete_answers h.two.1 hc

/-- C62: the effects.  Only `commit` changes the contents of the tree; if it succeeds the change is the one of the operation, and otherwise there
is none.  A delete that succeeds finds its key stored. -/
theorem C62_effects {act : TAct} {ev : Ev} (h : TRun env TTwoUpdates τ σ) (hall : act.allowed env τ) (hG : TTwoUpdates τ act)
    (he : texec env.fetch τ act = some (.ok (τ', ev))) {k : Key} (hk : k ≠ []) :
    match act with
    | .act (.commit a) =>
      (∃ op value cm b tl, τ.f.sys.proc a = .updB op value cm ∧ τ'.f.sys.proc a = .upd (.tail b tl) ∧
        content env.fetch τ'.f.sys.st k = if b = true ∧ k = op.key then some (trunc55 value) else content env.fetch τ.f.sys.st k) ∨
      (∃ cur cm b tl, τ.f.sys.proc a = .delB cur cm ∧ τ'.f.sys.proc a = .del (.tail b tl) ∧
        content env.fetch τ'.f.sys.st k = (if b = true ∧ k = cur.key then none else content env.fetch τ.f.sys.st k) ∧
        (b = true → content env.fetch τ.f.sys.st cur.key ≠ none))
    | _ => content env.fetch τ'.f.sys.st k = content env.fetch τ.f.sys.st k := by
  obtain ⟨hf, hl⟩ := h.two
  cases act with
  | load a x =>
    obtain ⟨h1, _⟩ := TSys.load_loaded hl he
    show content env.fetch τ'.f.sys.st k = _
    rw [h1]
  | act act =>
    obtain ⟨s, t, seen, hF⟩ := hf.two
    have := C47_effects hf hall hG (TSys.step_rel hF.weaken hl hall
      (fun {b x w} hx a cur cm _ hp _ _ _ => hF.twoApart hp (hl b x w hx).1) he).1 hk
    cases act <;> exact this

/-- C62: a step panics only if no memory block is left, or `Finalize` recycles a node of exactly 258 slots after its change has taken effect. -/
theorem C62_panics (h : TRun env TTwoUpdates τ σ) {act : TAct} {e : Panic} (hall : act.allowed env τ) (hG : TTwoUpdates τ act)
    (he : texec env.fetch τ act = some (.error e)) :
    ((act = .act .block ∨ ∃ a value, act = .act (.build a value)) ∧ e = .noBlocks) ∨
    (∃ a, act = .act (.tail a) ∧ e = .index ∧ ∃ b tl n, (τ.f.sys.proc a = .upd (.tail b tl) ∨ τ.f.sys.proc a = .del (.tail b tl)) ∧
      tl.free = some (n, 258)) := by
  obtain ⟨hf, hl⟩ := h.two
  cases act with
  | load a x =>
    simp only [texec] at he
    split at he <;> cases he
  | act act =>
    rcases C47_panics hf hall hG (hl.panics he) with ⟨h1 | ⟨a, v, h1⟩, h2⟩ | ⟨a, h1, h2, h3⟩
    · exact .inl ⟨.inl (by rw [h1]), h2⟩
    · exact .inl ⟨.inr ⟨a, v, by rw [h1]⟩, h2⟩
    · exact .inr ⟨a, by rw [h1], h2, h3⟩

end

/-! ## An execution -/

def tupdatesB (τ : TSys) : TAct → Bool
  | .load _ _ => true
  | .act x => updatesB 1 τ.f x

/-- Perform the steps, as long as they are possible and allowed, with at most two updates, or one delete, at a time. -/
def ttrace2 (l : List Key) (τ : TSys) (σ : Spec) : List TAct → Option (TSys × Spec)
  | [] => some (τ, σ)
  | act :: acts =>
    if act.allowedB l τ && tupdatesB τ act then
      match texec (fun v => l.getD (v.toNat % l.length) []) τ act with
      | some (.ok (τ', ev)) => ttrace2 l τ' (σ.next ev) acts
      | _ => none
    else none

theorem TRun.trace2 {l h} : ∀ {acts τ σ τ' σ'}, TRun (Env.ofList l h) TTwoUpdates τ σ → ttrace2 l τ σ acts = some (τ', σ') →
    TRun (Env.ofList l h) TTwoUpdates τ' σ'
  | [], τ, σ, τ', σ', hr, ht => by
    simp only [ttrace2, Option.some.injEq, Prod.mk.injEq] at ht
    obtain ⟨rfl, rfl⟩ := ht
    exact hr
  | act :: acts, τ, σ, τ', σ', hr, ht => by
    simp only [ttrace2] at ht
    split at ht
    · rename_i hb
      simp only [Bool.and_eq_true] at hb
      split at ht
      · rename_i τ1 ev he
        refine TRun.trace2 (.step hr ?_ ?_ he) ht
        · cases act with
          | load a x => trivial
          | act x => exact allowedB_sound hb.1
        · cases act with
          | load a x => trivial
          | act x => exact twoUpdates_sound _ _ _ hr.two.1 hb.2
      · cases ht
    · cases ht

/-- While allocator 1 copies the root word by word, to insert "c", allocator 0 inserts "aac" below the root: both keys are stored, and then a delete
begins. -/
example : ∃ τ σ, TRun (Env.ofList raceKeys raceKeys_good) TTwoUpdates τ σ ∧ σ.map [99] = some 4 ∧ σ.map [97, 97, 99] = some 6 ∧
    (τ.f.sys.proc 0).deleting = true := by
  have h : (match ttrace2 raceKeys (TSys.new 2) .init (tornActs 11 12 ++ [.act (.build 1 4), .act (.commit 1), .act (.unlock 1), .act (.tail 1),
      .act (.begin 0 (.delete [98]))]) with
    | some (τ, σ) => decide (σ.map [99] = some 4 ∧ σ.map [97, 97, 99] = some 6 ∧ (τ.f.sys.proc 0).deleting = true)
    | none => false) = true := by decide +kernel
  split at h
  · rename_i τ σ ht
    exact ⟨τ, σ, TRun.trace2 (.init 2) ht, of_decide_eq_true h⟩
  · cases h

end Radix
