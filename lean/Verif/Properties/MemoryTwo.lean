import Verif.Properties.TornTwo
import Verif.Properties.Memory
import Verif.Properties.Stats
import Verif.Properties.Unused
/-!
# C19, C23, C54 and C68 with two updates or one delete at a time, access by access

The executions are those of C62: every access to shared memory, and every load of a word that is copied, is a step of its own; nothing is assumed
about the order of the steps.  Those of C45 and C60, in which any number of operations may be under way, need the restriction of C09.
-/
set_option autoImplicit false
namespace Radix

section
variable {P : Key → Word → Prop} {st : St} {t : T} {N : Nat → Nat}

/-- The lock words have no part in what the memory contains. -/
theorem CoreN.relock (hc : CoreN P st t N) (l : Nat → Nat → Int) (r : Int) : CoreN P { st with locks := l, rootLock := r } t N :=
  ⟨hc.root, hc.repr, hc.wf, hc.inb, hc.nb, hc.sep, hc.ok, hc.zero, hc.n0⟩
end

section
variable {env : Env} {f : FSys} {σ : Spec} {τ : TSys}

theorem FRelX.core {X : Sys → Spec → Prop} {s : Sys} {t : T} {seen : Nat → T → Prop} (h : FRelX env X f s σ t seen) :
    CoreN env.P f.sys.st t s.pend := by
  have e : f.sys.st = { s.st with locks := f.sys.st.locks, rootLock := f.sys.st.rootLock } := congrArg Sys.st h.sys
  rw [e]
  exact h.inv.mem.core.relock _ _

theorem FRun.coreTwo (h : FRun env FTwoUpdates f σ) : ∃ t N, CoreN env.P f.sys.st t N := by
  obtain ⟨s, t, seen, hF⟩ := h.two
  exact ⟨t, _, hF.core⟩

/-- C23: with at most two updates or one delete under way, and any number of lookups. -/
theorem C23_live_nodes_disjoint_two (h : TRun env TTwoUpdates τ σ) : Separate τ.f.sys.st := by
  obtain ⟨t, N, hc⟩ := h.two.1.coreTwo
  exact hc.separate

/-- C23: with any number of operations, in the executions of C60. -/
theorem C23_live_nodes_disjoint_fine_partial (h : TRun env TCalm τ σ) : Separate τ.f.sys.st := by
  obtain ⟨s, t, seen, hF⟩ := h.fine.1.rel
  exact hF.core.separate

/-- C19: when no operation is under way any more, `Len` is the number of stored keys. -/
theorem C19_len_two (h : TRun env TTwoUpdates τ σ) (hidle : ∀ a, τ.f.sys.proc a = .idle) :
    ∃ l : List Key, l.Nodup ∧ (∀ k, k ∈ l ↔ σ.map k ≠ none) ∧ τ.f.sys.st.len = l.length := by
  obtain ⟨s, t, seen, hF⟩ := h.two.1.two
  obtain ⟨l, h1, h2, h3⟩ := C19_len_is_number_of_keys_partial hF.weaken.run (fun a => by rw [← hF.proc]; exact hidle a)
  exact ⟨l, h1, h2, by rw [hF.st]; exact h3⟩

/-- C19: the same in the executions of C60. -/
theorem C19_len_fine_partial (h : TRun env TCalm τ σ) (hidle : ∀ a, τ.f.sys.proc a = .idle) :
    ∃ l : List Key, l.Nodup ∧ (∀ k, k ∈ l ↔ σ.map k ≠ none) ∧ τ.f.sys.st.len = l.length := by
  obtain ⟨s, t, seen, hF⟩ := h.fine.1.rel
  obtain ⟨l, h1, h2, h3⟩ := C19_len_is_number_of_keys_partial hF.run (fun a => by rw [← hF.proc]; exact hidle a)
  exact ⟨l, h1, h2, by rw [hF.st]; exact h3⟩

/-- C54: the number of objects reported, as `C54_objects_partial`. -/
theorem C54_objects_two (h : TRun env TTwoUpdates τ σ) (hidle : ∀ a, τ.f.sys.proc a = .idle) :
    ∃ l : List Key, l.Nodup ∧ (∀ k, k ∈ l ↔ σ.map k ≠ none) ∧
      τ.f.sys.st.stats.objects + ((List.range τ.f.sys.st.nalloc).map fun a => (τ.f.sys.st.allocs a).itemCounter).sum = l.length := by
  obtain ⟨l, h1, h2, h3⟩ := C19_len_two h hidle
  exact ⟨l, h1, h2, by rw [← h3, St.len_eq]; rfl⟩

/-- C68: how many bytes `unused` counts. -/
theorem C68_room_two (h : TRun env TTwoUpdates τ σ) {a : Nat} (ha : a < τ.f.sys.st.nalloc) (hu : 0 < τ.f.sys.st.unused a) (x : Nat) :
    AheadOf τ.f.sys.st a x ↔ τ.f.sys.st.nextSlot a ≤ x ∧
      8 * ((x : Int) - τ.f.sys.st.nextSlot a) + (if (τ.f.sys.st.allocs a).block = 0 then 8 else 0) < τ.f.sys.st.unused a := by
  obtain ⟨t, N, hc⟩ := h.two.1.coreTwo
  split
  · rename_i hb
    exact hc.unused_room_0 ha hu hb x
  · rename_i hb
    rw [Int.add_zero]
    exact hc.unused_room ha hu hb x

/-- C68: the bytes counted, except the last 8, are free. -/
theorem C68_free_two (h : TRun env TTwoUpdates τ σ) {a : Nat} (ha : a < τ.f.sys.st.nalloc) {x : Nat} (h1 : τ.f.sys.st.nextSlot a ≤ x)
    (h2 : 8 * ((x : Int) - τ.f.sys.st.nextSlot a) + 8 < τ.f.sys.st.unused a) :
    ¬ InTree τ.f.sys.st x ∧ ¬ InRecycler τ.f.sys.st x := by
  obtain ⟨t, N, hc⟩ := h.two.1.coreTwo
  exact ⟨(hc.unused_free ha h1 h2).1, (hc.unused_free ha h1 h2).2.1⟩
end

/-- The hypotheses are met: two updates under way at the same time, one of which copies the node word by word, have stored keys; then nothing is
under way. -/
example : ∃ τ σ, TRun (Env.ofList raceKeys raceKeys_good) TTwoUpdates τ σ ∧ (∀ a, τ.f.sys.proc a = .idle) ∧ σ.map [99] = some 4 ∧
    σ.map [97, 97, 99] = some 6 ∧ 0 < τ.f.sys.st.nalloc ∧ 8 < τ.f.sys.st.unused 0 := by
  have h : (match ttrace2 raceKeys (TSys.new 2) .init (tornActs 11 12 ++ [.act (.build 1 4), .act (.commit 1), .act (.unlock 1), .act (.tail 1)]) with
    | some (τ, σ) => decide (τ.f.sys.st.nalloc = 2) && (List.range τ.f.sys.st.nalloc).all (fun b => (τ.f.sys.proc b).isIdle) &&
      decide (σ.map [99] = some 4) && decide (σ.map [97, 97, 99] = some 6) && decide (8 < τ.f.sys.st.unused 0)
    | none => false) = true := by decide +kernel
  split at h
  · rename_i τ σ ht
    have hr := TRun.trace2 (h := raceKeys_good) (.init 2) ht
    simp only [Bool.and_eq_true, decide_eq_true_eq] at h
    obtain ⟨s, t, seen, hF⟩ := hr.two.1.two
    refine ⟨τ, σ, hr, ?_, h.1.1.2, h.1.2, by omega, h.2⟩
    have e := h.1.1.1.2
    rw [hF.proc, hF.st] at e
    rw [hF.proc]
    exact all_idle hF.inv.mem.off e
  · cases h

end Radix
