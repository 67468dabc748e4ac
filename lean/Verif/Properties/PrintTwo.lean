import Verif.Properties.MemoryTwo
import Verif.Properties.DebugSearch
/-!
# C53 and C65 with two updates or one delete at a time, access by access

What `Admin` and `debugSearch` print in a state of the executions of C62, in the middle of operations as well.
-/
set_option autoImplicit false
namespace Radix

section
variable {st : St} {l : Nat → Nat → Int} {r : Int}

theorem debugPrintNode_relock (w : Word) : debugPrintNode { st with locks := l, rootLock := r } w = debugPrintNode st w := rfl

theorem Listed.relock {w : Word} {p : Key} : Listed { st with locks := l, rootLock := r } w p ↔ Listed st w p := by
  constructor <;> intro h
  · induction h with
    | root h1 h2 => exact .root (st := st) h1 h2
    | line _ h2 h3 h4 ih => exact .line ih h2 h3 h4
  · induction h with
    | root h1 h2 => exact .root (st := { st with locks := l, rootLock := r }) h1 h2
    | line _ h2 h3 h4 ih => exact .line ih h2 h3 h4

theorem SearchTrail.relock {key : Key} {v : Option Word} {w : Word} {p : Key} {out : List Printed} (h : SearchTrail st key v w p out) :
    SearchTrail { st with locks := l, rootLock := r } key v w p out := by
  induction h with
  | miss h1 h2 => exact .miss h1 h2
  | leaf h1 h2 h3 h4 => exact .leaf h1 h2 h3 h4
  | down h1 h2 h3 h4 h5 _ ih => exact .down h1 h2 h3 h4 h5 ih

theorem debugSearchLoop_relock (key : Key) (fuel : Nat) : ∀ (w : Word) (d : Nat),
    debugSearchLoop { st with locks := l, rootLock := r } key fuel w d = debugSearchLoop st key fuel w d := by
  induction fuel with
  | zero => intro w d; rfl
  | succ fuel ih =>
    intro w d
    unfold debugSearchLoop
    simp only [ih]
    rfl

theorem debugSearch_relock (key : Key) : debugSearch { st with locks := l, rootLock := r } key = debugSearch st key := by
  unfold debugSearch
  rw [debugSearchLoop_relock]
end

variable {env : Env} {τ : TSys} {σ : Spec}

theorem TRun.twoStep (h : TRun env TTwoUpdates τ σ) : ∃ s l r, Run env Calm s σ ∧ τ.f.sys.st = { s.st with locks := l, rootLock := r } := by
  obtain ⟨s, t, seen, hF⟩ := h.two.1.two
  exact ⟨s, _, _, hF.weaken.run, hF.st⟩

/-- C53: what is printed for a word found by following what was printed before is right. -/
theorem C53_prints_two (h : TRun env TTwoUpdates τ σ) {w : Word} {p : Key} (hl : Listed τ.f.sys.st w p) :
    ∃ out, debugPrintNode τ.f.sys.st w = .ok out ∧ Shows σ.map w p out := by
  obtain ⟨s, l, r, hr, e⟩ := h.twoStep
  rw [e] at hl ⊢
  exact C53_prints_partial hr (Listed.relock.1 hl)

/-- C53: every stored key is found in this way. -/
theorem C53_finds_two (h : TRun env TTwoUpdates τ σ) {key : Key} {v : Word} (hm : σ.map key = some v) :
    ∃ w p, Listed τ.f.sys.st w p ∧ p <+: key ∧ debugPrintNode τ.f.sys.st w = .ok (.leaf w) ∧ leafValue w = v := by
  obtain ⟨s, l, r, hr, e⟩ := h.twoStep
  obtain ⟨w, p, h1, h2⟩ := C53_finds_partial hr hm
  exact ⟨w, p, by rw [e]; exact Listed.relock.2 h1, by rw [e]; exact h2⟩

/-- C65: `debugSearch` returns the value of a stored key, and prints the way to it. -/
theorem C65_stored_two (h : TRun env TTwoUpdates τ σ) {key : Key} {v : Word} (hv : σ.map key = some v) :
    ∃ out, debugSearch τ.f.sys.st key = .ok (v, out) ∧ (isLeaf τ.f.sys.st.root = true → out = []) ∧
      (isLeaf τ.f.sys.st.root = false → SearchTrail τ.f.sys.st key (some v) τ.f.sys.st.root [] out) := by
  obtain ⟨s, l, r, hr, e⟩ := h.twoStep
  obtain ⟨out, h1, h2, h3, _⟩ := C65_stored hr hv
  rw [e]
  exact ⟨out, by rw [debugSearch_relock]; exact h1, h2, fun hl => (h3 hl).relock⟩

/-- C65: it returns in every state with a block. -/
theorem C65_returns_two (h : TRun env TTwoUpdates τ σ) (hb : 0 < τ.f.sys.st.nblocks) {key : Key} (hk : key ≠ []) :
    ∃ v out, debugSearch τ.f.sys.st key = .ok (v, out) := by
  obtain ⟨s, l, r, hr, e⟩ := h.twoStep
  rw [e] at hb ⊢
  obtain ⟨v, out, _, h2⟩ := C65_returns hr hb hk
  exact ⟨_, out, by rw [debugSearch_relock]; exact h2⟩

/-- The hypotheses are met in the middle of two updates, with stored keys, a block and a listed word. -/
example : ∃ τ σ, TRun (Env.ofList raceKeys raceKeys_good) TTwoUpdates τ σ ∧ (τ.f.sys.proc 1).writer = true ∧ 0 < τ.f.sys.st.nblocks ∧
    ∃ key v w p, σ.map key = some v ∧ Listed τ.f.sys.st w p := by
  have h : (match ttrace2 raceKeys (TSys.new 2) .init (tornActs 11 12) with
    | some (τ, σ) => decide ((τ.f.sys.proc 1).writer = true) && decide (0 < τ.f.sys.st.nblocks) && decide (σ.map [97, 97, 99] = some 6)
    | none => false) = true := by decide +kernel
  split at h
  · rename_i τ σ ht
    have hr := TRun.trace2 (h := raceKeys_good) (.init 2) ht
    simp only [Bool.and_eq_true, decide_eq_true_eq] at h
    obtain ⟨w, p, h1, _⟩ := C53_finds_two hr h.2
    exact ⟨τ, σ, hr, h.1.1, h.1.2, _, _, w, p, h.2, h1⟩
  · cases h

end Radix
