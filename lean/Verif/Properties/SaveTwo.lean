import Verif.Properties.WalkTwo
import Verif.Properties.Serial

/-!
# C29 to C31 for the executions of C62

A tree is built by two updates at a time, access by access and word by word, or by one delete, and saved when no operation is running.
-/

set_option autoImplicit false

namespace Radix

variable {env : Env} {τ : TSys} {σ : Spec}

/-- The state reached is, but for the locks, a state of `Run` with the same operations running. -/
theorem TRun.twoIdle (h : TRun env TTwoUpdates τ σ) : ∃ s l r, Run env Calm s σ ∧ τ.f.sys.st = { s.st with locks := l, rootLock := r } ∧
    s.proc = τ.f.sys.proc := by
  obtain ⟨s, t, seen, hF⟩ := h.two.1.two
  exact ⟨s, _, _, hF.weaken.run, hF.st, hF.proc.symm⟩

theorem Machine.relock {st : St} {l : Nat → Nat → Int} {r : Int} (h : Machine { st with locks := l, rootLock := r }) : Machine st :=
  ⟨h.live, h.epoch, h.nalloc, h.lists⟩

theorem Written.relock {enc : Bytes → Bytes} {empty : Nat → Bool} {st : St} {l : Nat → Nat → Int} {r : Int} {data : Bytes}
    (h : Written enc empty { st with locks := l, rootLock := r } data) : Written enc empty st data := by
  obtain ⟨st', order, h1, h2, h3⟩ := h
  rcases h1 with rfl | h1
  · exact ⟨st, order, .inl rfl, h2, h3⟩
  · have e : (st.relock l r).blockStep = .ok st' := h1
    rw [blockStep_relock] at e
    cases hb : st.blockStep with
    | error e' => rw [hb] at e; cases e
    | ok st'' =>
      rw [hb] at e
      cases e
      exact ⟨st'', order, .inr hb, h2, h3⟩

theorem SameTree.relock {fetch : Word → Key} {st st' : St} {l : Nat → Nat → Int} {r : Int} (h : SameTree fetch st st') :
    SameTree fetch { st with locks := l, rootLock := r } st' :=
  ⟨fun key hk => by rw [h.contents key hk]; exact (content_relock fetch st l r key).symm, h.nalloc, h.position, h.free⟩

/-- C29, as `C29_state_round_trip_partial`.  What is missing is said there. -/
theorem C29_state_round_trip_two_partial (h : TRun env TTwoUpdates τ σ) (hid : ∀ a, τ.f.sys.proc a = .idle)
    (hr : τ.f.sys.st.baReady = true ∨ τ.f.sys.st.baSent = false) (hm : Machine τ.f.sys.st) {enc : Bytes → Bytes} {dc : Bytes → Option Bytes}
    (hc : Codec enc dc) {empty : Nat → Bool} {data : Bytes} (hw : Written enc empty τ.f.sys.st data) :
    ∃ L st', loadState dc data = .ok L ∧ L.start = some st' ∧ SameTree env.fetch τ.f.sys.st st' ∧
      ∀ key, key ≠ [] → content env.fetch st' key = σ.map key := by
  obtain ⟨s, l, r, hs, e, ep⟩ := h.twoIdle
  rw [← ep] at hid
  rw [e] at hr hm hw ⊢
  obtain ⟨L, st', h1, h2, h3, h4⟩ := C29_state_round_trip_partial hs hid hr hm.relock hc hw.relock
  exact ⟨L, st', h1, h2, h3.relock, h4⟩

/-- C30, if the counters of the allocators were flushed. -/
theorem C30_len_two_partial (h : TRun env TTwoUpdates τ σ) (hid : ∀ a, τ.f.sys.proc a = .idle) (hm : Machine τ.f.sys.st)
    (hf : ∀ a, a < τ.f.sys.st.nalloc → (τ.f.sys.st.allocs a).itemCounter = 0) {enc : Bytes → Bytes} {dc : Bytes → Option Bytes} (hc : Codec enc dc)
    {empty : Nat → Bool} {data : Bytes} (hw : Written enc empty τ.f.sys.st data) {L : Loaded} {st' : St} (h1 : loadState dc data = .ok L)
    (h2 : L.start = some st') : st'.len = τ.f.sys.st.len := by
  obtain ⟨s, l, r, hs, e, ep⟩ := h.twoIdle
  rw [← ep] at hid
  rw [e] at hf hm hw ⊢
  exact C30_len_partial hs hid hm.relock hf hc hw.relock h1 h2

/-- C31, for truncated data of a tree that uses at least one block and whose number of blocks is published, as `C31_truncated_partial`. -/
theorem C31_truncated_two_partial (h : TRun env TTwoUpdates τ σ) (hid : ∀ a, τ.f.sys.proc a = .idle)
    (hr : τ.f.sys.st.baReady = true ∨ τ.f.sys.st.baSent = false) (hb : 0 < τ.f.sys.st.baNext) (hm : Machine τ.f.sys.st) {enc : Bytes → Bytes}
    {dc : Bytes → Option Bytes} (hc : Codec enc dc) {empty : Nat → Bool} {data : Bytes} (hw : Written enc empty τ.f.sys.st data) {p : Bytes}
    (hp : p <+: data) : loadState dc p = .error .err ∨
    ∃ L, loadState dc p = .ok L ∧ (L.start = none ∨ ∃ st', L.start = some st' ∧ SameTree env.fetch τ.f.sys.st st') := by
  obtain ⟨s, l, r, hs, e, ep⟩ := h.twoIdle
  rw [← ep] at hid
  rw [e] at hr hb hm hw ⊢
  rcases C31_truncated_partial hs hid hr hb hm.relock hc hw.relock hp with g | ⟨L, g1, g2 | ⟨st', g2, g3⟩⟩
  · exact .inl g
  · exact .inr ⟨L, g1, .inl g2⟩
  · exact .inr ⟨L, g1, .inr ⟨st', g2, g3.relock⟩⟩

/-- The hypotheses are met after two updates that overlapped; the counters are flushed and a block is written. -/
example : ∃ τ σ, TRun (Env.ofList raceKeys raceKeys_good) TTwoUpdates τ σ ∧ (∀ a, τ.f.sys.proc a = .idle) ∧ τ.f.sys.st.baReady = true ∧
    0 < τ.f.sys.st.baNext ∧ Machine τ.f.sys.st ∧ (∀ a, a < τ.f.sys.st.nalloc → (τ.f.sys.st.allocs a).itemCounter = 0) ∧
    σ.map [97, 97, 99] = some 6 ∧ σ.map [99] = some 4 ∧ ∃ data, Written (fun x => x) (fun _ => false) τ.f.sys.st data := by
  have h : (match ttrace2 raceKeys (TSys.new 2) .init (tornActs 11 12 ++ [.act (.build 1 4), .act (.commit 1), .act (.unlock 1), .act (.tail 1),
      .act .block, .act (.flush 0), .act (.flush 1)]) with
    | some (τ, σ) => machineB τ.f.sys && τ.f.sys.st.baReady && decide (0 < τ.f.sys.st.baNext) &&
        (List.range τ.f.sys.st.nalloc).all (fun a => (τ.f.sys.st.allocs a).itemCounter == 0) && decide (σ.map [97, 97, 99] = some 6) &&
        decide (σ.map [99] = some 4)
    | none => false) = true := by decide +kernel
  split at h
  · rename_i τ σ ht
    have hr := TRun.trace2 (h := raceKeys_good) (.init 2) ht
    simp only [Bool.and_eq_true, beq_iff_eq, List.all_eq_true, List.mem_range, decide_eq_true_eq] at h
    obtain ⟨⟨⟨⟨⟨h1, h2⟩, h3⟩, h4⟩, h5⟩, h6⟩ := h
    obtain ⟨s, l, r, hs, e, ep⟩ := hr.twoIdle
    have hb : machineB s = true := by
      unfold machineB at h1 ⊢
      rw [e, ← ep] at h1
      exact h1
    obtain ⟨hid, hm⟩ := machineB_sound hs hb
    rw [ep] at hid
    refine ⟨τ, σ, hr, hid, h2, h3, ?_, h4, h5, h6, _, τ.f.sys.st, _, .inl rfl, List.Perm.refl _, rfl⟩
    rw [e]
    exact ⟨hm.live, hm.epoch, hm.nalloc, hm.lists⟩
  · cases h

end Radix
