import Verif.Sys.Recycle
import Verif.Properties.Readers
import Verif.Shape
/-!
# C25: `MinKey` and `MaxKey` read memory that is reused

`MinKey` and `MaxKey` (radix.go:448-550) do not call `startOp`.  Memory that was recycled while they run is handed out again as soon as a new epoch has
begun and no other operation is under way that began before.
-/
set_option autoImplicit false
namespace Radix
open T

/-! ## Trees without nodes of 256 slots -/

theorem T.Dense.ofNoBig : ∀ {t : T}, (∀ p, ¬ t.HasBig p) → t.Dense
  | .empty, _ => trivial
  | .leaf _ _, _ => trivial
  | .node n pfx big ch, h => by
    refine ⟨fun hb => absurd (.inl ⟨hb, rfl⟩) (h pfx), fun c => T.Dense.ofNoBig fun p hp => ?_⟩
    exact h (pfx ++ c :: p) (.inr ⟨c, p, rfl, hp⟩)

theorem HasBig.ofAt {t : T} {q : Key} {n : Nat} {pfx : List UInt8} {ch : UInt8 → T} (h : At t q (.node n pfx true ch)) : ∃ p, t.HasBig p := by
  generalize ht : T.node n pfx true ch = t' at h
  induction h with
  | here => subst ht; exact ⟨pfx, .inl ⟨rfl, rfl⟩⟩
  | down _ ih =>
    obtain ⟨p, hp⟩ := ih ht
    exact ⟨_, .inr ⟨_, p, rfl, hp⟩⟩

/-- All keys are made of the bytes "a" and "b". -/
def Env.AB (env : Env) : Prop := ∀ k, env.keys k → ∀ b ∈ k, b = 97 ∨ b = 98

theorem T.Dense.noBig {env : Env} (hab : env.AB) {t : T} : ∀ {q : Key}, t.Dense → t.WF env.P q → ∀ p, ¬ t.HasBig p := by
  induction t with
  | empty => intro _ _ _ p h; cases h
  | leaf => intro _ _ _ p h; cases h
  | node n pfx big ch ih =>
    intro q hd hwf p h
    rcases h with ⟨hb, _⟩ | ⟨c, r, _, h⟩
    · have h1 := hd.1 hb
      have hf := hd.full hwf
      have h2 : cntOf (present ch) ≤ cntOf (fun c => c = 97 || c = 98) := by
        refine cntOf_mono fun c hc => ?_
        have he : (ch c).isEmpty = false := by simpa [present] using hc
        obtain ⟨k, v, hk⟩ := (hf.2 c).has he
        obtain ⟨hp, hP⟩ := (hwf.2.2 c).has hk
        have : c = 97 ∨ c = 98 := by
          refine hab k hP.1 c ?_
          exact hp.subset (by simp)
        simpa using this
      have h3 : cntOf (fun c => c = 97 || c = 98) = 2 := by decide +kernel
      omega
    · exact ih c (hd.2 c) (hwf.2.2 c) r h

/-! ## Following the memory -/

/-- An execution in which the trees have no node with 256 slots. -/
def SlimRun (env : Env) (s : Sys) (σ : Spec) : Prop := Run env Serial s σ ∧ ∃ t seen, Inv env s σ t seen ∧ t.Dense

theorem SlimRun.step {env : Env} (hab : env.AB) {s : Sys} {σ : Spec} {act : Act} {s' : Sys} {ev : Ev} (h : SlimRun env s σ)
    (hall : env.Allowed s act) (hser : Serial s act) (he : exec env.fetch s act = some (.ok (s', ev))) : SlimRun env s' (σ.next ev) := by
  obtain ⟨hr, t, seen, hI, hd⟩ := h
  refine ⟨hr.step hall hser he, ?_⟩
  have hcalm := hr.serial.2.calm hI hser.oneWriter
  rcases exec_inv hI hall hcalm he with ⟨s1, ev1, t', seen', e, hI', _, hdn, _, hkb, _⟩ | ⟨e, h, _⟩
  · injection e with e; injection e with e1 e2; subst e1 e2
    refine ⟨t', seen', hI', ?_⟩
    by_cases hp : s.DelPub act
    · exact .ofNoBig fun p hb => hd.noBig hab hI.mem.core.wf p (hkb hp p hb)
    · exact hdn hp hd
  · cases h

theorem Run.slim {env : Env} (hab : env.AB) {s : Sys} {σ : Spec} (h : Run env Serial s σ) : SlimRun env s σ := by
  induction h with
  | init n => exact ⟨.init n, _, _, new_inv env n, trivial⟩
  | reload h1 h2 ih =>
    obtain ⟨hr, t, seen, hI, hd⟩ := ih
    exact ⟨.reload h1 h2, t, _, restore_inv hI h2, hd⟩
  | step _ h1 h2 h3 ih => exact ih.step hab h1 h2 h3

section
variable {env : Env} (hab : env.AB) {α : Type} {s0 : Sys} {σ0 : Spec} {p q : Prog α} {A sz : Nat}

/-- The reader can get into a state in which it still has to do `q`, and the memory at `A` is handed out. -/
def Reusable (env : Env) (s0 : Sys) (σ0 : Spec) {α : Type} (p q : Prog α) (A sz : Nat) : Prop :=
  ∃ s σ st', Walks env Serial (fun _ _ => True) s0 σ0 p s σ q ∧ s.st.nalloc = 1 ∧ newNodes s.st 0 [sz] = .ok ([(A, sz)], st')

/-- The reader has still to do `q`; `c` pieces of memory are recycled, the one at `A` is the first to be reused - or it is handed out in another
continuation. -/
def Waits (env : Env) (s0 : Sys) (σ0 : Spec) {α : Type} (p q : Prog α) (A sz c : Nat) (s : Sys) (σ : Spec) : Prop :=
  SlimRun env s σ ∧ (Reusable env s0 σ0 p q A sz ∨ (Walks env Serial (fun _ _ => True) s0 σ0 p s σ q ∧ Waiting A sz c s.st))

theorem Ripe.reusable {s : Sys} {σ : Spec} (h : Ripe A sz s.st) (hsz : sz < recyclerLen) (hr : SlimRun env s σ) (hp : s.proc 0 = .idle)
    (hw : Walks env Serial (fun _ _ => True) s0 σ0 p s σ q) : Reusable env s0 σ0 p q A sz := by
  obtain ⟨_, t, seen, hI, _⟩ := hr
  obtain ⟨st', h1⟩ := h.reused hsz (hI.mem.idle 0 (by rw [hp]; rfl))
  exact ⟨s, _, st', hw, h.nalloc, h1⟩

include hab in
theorem Waits.step (hsz : sz < recyclerLen) {c : Nat} {s : Sys} {σ : Spec} {act : Act} {s' : Sys} {ev : Ev} (h : Waits env s0 σ0 p q A sz c s σ)
    (hall : env.Allowed s act) (hser : Serial s act) (he : exec env.fetch s act = some (.ok (s', ev))) :
    Waits env s0 σ0 p q A sz c s' (σ.next ev) := by
  obtain ⟨hr, h⟩ := h
  have hr' := hr.step hab hall hser he
  refine ⟨hr', ?_⟩
  rcases h with h | ⟨h1, h3⟩
  · exact .inl h
  · have hw := Walks.other h1 hall hser he trivial
    obtain ⟨_, t, seen, hI, _⟩ := hr
    rcases h3.exec hI he with h4 | ⟨h4, a, _, rfl, h5⟩
    · exact .inr ⟨hw, h4⟩
    · exact .inl (h4.reusable hsz hr' (by rw [h5, upd_same]) hw)

include hab in
/-- Deleting one of two keys recycles memory. -/
theorem Waits.delSteps (hsz : sz < recyclerLen) (hshort : env.Short) {c : Nat} {σ : Spec} {s' : Sys} {σ' : Spec} {k1 k2 : Key} (hne : k1 ≠ k2)
    (hm1 : σ.map k1 ≠ none) (hm2 : σ.map k2 ≠ none) (hs : s'.proc 0 = .idle) (hr' : SlimRun env s' σ')
    {s : Sys} (h : DelSteps env (Waits env s0 σ0 p q A sz c) 0 k2 s σ s' σ') : Waits env s0 σ0 p q A sz (c + 1) s' σ' := by
  refine ⟨hr', ?_⟩
  obtain ⟨s1, σ1, cur, tl, st', ⟨hr, _⟩, hm, hp, hkey, hS, hall, hpub, ⟨_, hR⟩, he, _⟩ := h
  rcases hR with hR | ⟨hw, hW⟩
  · exact .inl hR
  obtain ⟨_, t, seen, hI, hd⟩ := hr
  have hcalm : Calm s1 (.publish 0 0) := SInv.calm (act := .publish 0 0) hI hS trivial
  have hbig : cur.op.kind ≠ .deleteLeaf256 := by
    intro hk
    rcases publishD_inv hI hp hall hcalm with e | ⟨b, tl', st'', e, _, g, _⟩
    · rw [hpub] at e; cases e
    · rw [hpub] at e; cases e
      obtain ⟨_, _, _, _, hat⟩ := (g rfl).2 hk
      obtain ⟨r, hb⟩ := HasBig.ofAt hat
      exact hd.noBig hab hI.mem.core.wf r hb
  have hfact := (held_del hI hp).1
  have hroot : cur.op.kind ≠ .deleteRoot := by
    intro hk
    unfold DFact at hfact
    rw [hk] at hfact
    obtain ⟨lk, lv, ht, _⟩ := hfact
    rw [← hm] at hm1 hm2
    obtain ⟨v1, e1⟩ := hI.mem.content.some_iff.1 hm1
    obtain ⟨v2, e2⟩ := hI.mem.content.some_iff.1 hm2
    rw [ht] at e1 e2
    exact hne (e1.1.symm.trans e2.1 |> fun h => by simpa using h)
  have hnf : cur.op.kind ≠ .notFound := by
    intro hk
    unfold DFact at hfact
    rw [hk] at hfact
    exact hfact
  obtain ⟨n, hfree⟩ := publishD_frees hpub hroot hbig hnf
  have hlt := short_del hshort hI hp hroot hbig
  have hrun : st'.runTail 0 tl = .ok s'.st := by
    simp only [exec, Sys.set, upd_same] at he
    injection he with he
    obtain ⟨st2, h1, h2⟩ := bind_ok he
    cases h2
    exact h1
  have hw' := Walks.other hw (act := .tail 0) trivial trivial he trivial
  rcases (hW.tail (st := st') hrun).1 ⟨n, _, hfree, hlt⟩ with h1 | h1
  · exact .inr ⟨hw', h1⟩
  · exact .inl (h1.reusable hsz hr' hs hw')

include hab in
/-- A key is stored and deleted again. -/
theorem Waits.cycle (hsz : sz < recyclerLen) (hshort : env.Short) {c : Nat} {s : Sys} {σ : Spec} {k1 k2 : Key} (hne : k1 ≠ k2) (hk2 : env.keys k2)
    {v : Word} (hv : env.fetch (trunc55 v) = k2) (h : Waits env s0 σ0 p q A sz c s σ) (hidle : ∀ b, s.proc b = .idle) (hn : s.st.nalloc = 1)
    (hm1 : σ.map k1 ≠ none) (hmem : s.st.baNext + 4 ≤ maxBlockCount) :
    ∃ s' σ', Waits env s0 σ0 p q A sz (c + 1) s' σ' ∧ (∀ b, s'.proc b = .idle) ∧ s'.st.nalloc = 1 ∧ σ'.map k1 ≠ none ∧
      s'.st.baNext ≤ s.st.baNext + 4 := by
  rcases put_alone (env := env) (G := Serial) (R := Waits env s0 σ0 p q A sz c) (Waits.step hab hsz) (fun _ _ h _ => h) (fun _ _ h => h.1.1.serial.1)
    h hidle (a := 0) (by omega) hk2 hv with ⟨_, s1, σ1, _, h1, hid1, hmap1, hba1, hn1, _⟩ | ⟨_, _, _, _, hx⟩ | ⟨hx, _⟩
  · rcases del_alone (env := env) (G := Serial) (R := Waits env s0 σ0 p q A sz c) (Waits.step hab hsz) (fun _ _ h => h) (fun _ _ h => h.1.1.serial.1)
      h1 hid1 (a := 0) (by omega) (key := k2) (by rw [hmap1, upd_same]; simp) with
      ⟨_, s2, σ2, _, h2, hid2, hmap2, hba2, hn2, hd⟩ | ⟨_, _, _, _, hx⟩ | ⟨hx, _⟩
    · have hm1' : σ1.map k1 ≠ none := by rw [hmap1, upd_of_ne _ _ hne]; exact hm1
      refine ⟨s2, σ2, ?_, hid2, by omega, ?_, by omega⟩
      · exact Waits.delSteps hab hsz hshort hne hm1' (by rw [hmap1, upd_same]; simp) (hid2 0) h2.1 hd
      · rw [hmap2, upd_of_ne _ _ hne]; exact hm1'
    · omega
    · exact absurd hshort hx
  · omega
  · exact absurd hshort hx

include hab in
/-- The memory is handed out at some time. -/
theorem Waits.reusable (hsz : sz < recyclerLen) (hshort : env.Short) {k1 k2 : Key} (hne : k1 ≠ k2) (hk2 : env.keys k2) {v : Word}
    (hv : env.fetch (trunc55 v) = k2) : ∀ (m c : Nat) {s : Sys} {σ : Spec}, 1000 ≤ c + m → Waits env s0 σ0 p q A sz c s σ →
    (∀ b, s.proc b = .idle) → s.st.nalloc = 1 → σ.map k1 ≠ none → s.st.baNext + 4 * m ≤ maxBlockCount → Reusable env s0 σ0 p q A sz
  | 0, c, s, σ, hc, h, _, _, _, _ => by
    rcases h.2 with h | ⟨_, h⟩
    · exact h
    · have := h.low
      have := h.high
      omega
  | m + 1, c, s, σ, hc, h, hidle, hn, hm1, hmem => by
    obtain ⟨s', σ', h1, h2, h3, h4, h5⟩ := h.cycle hab hsz hshort hne hk2 hv hidle hn hm1 (by omega)
    exact Waits.reusable hsz hshort hne hk2 hv m (c + 1) (by omega) h1 h2 h3 h4 (by omega)
end

/-! ## C25 -/

/-- C25: what `MinKey` and `MaxKey` are about to load is not handed out for a new node. -/
def C25_statement : Prop :=
  ∀ (env : Env) (fuel : Nat) (sp : Key) (p : Prog (Option Word)), (p = minKeyP fuel sp ∨ p = maxKeyP fuel sp) →
    ∀ s σ s' σ' x k, Run env Serial s σ → 0 < s.st.nblocks → Walks env Serial (fun _ _ => True) s σ p s' σ' (.load x k) →
    ∀ b sizes r st', b < s'.st.nalloc → (∀ z ∈ sizes, 2 ≤ z ∧ z + 1 < blockSlots) → newNodes s'.st b sizes = .ok (r, st') →
      ∀ n z, (n, z) ∈ r → ¬ (n ≤ x ∧ x < n + z)

/-- The keys "aa" and "ab". -/
def twoKeys : List Key := [[97, 97], [97, 98]]

theorem twoKeys_good : goodKeys twoKeys = true := by decide +kernel

def twoEnv : Env := Env.ofList twoKeys twoKeys_good

theorem twoEnv_ab : twoEnv.AB := by
  intro k hk
  have : k = [97, 97] ∨ k = [97, 98] := by simpa [twoEnv, Env.ofList, twoKeys] using hk
  rcases this with rfl | rfl <;> simp

theorem twoEnv_short : twoEnv.Short := by
  intro k hk
  have : k = [97, 97] ∨ k = [97, 98] := by simpa [twoEnv, Env.ofList, twoKeys] using hk
  rcases this with rfl | rfl <;> simp

/-- The two keys are stored; `MinKey` takes two steps and is about to load the first child of the root; then "ab" is deleted. -/
def twoCheck : Bool :=
  match trace twoKeys serialB (Sys.new 1) .init ([.block] ++ putActs 0 [97, 97] 0 2 ++ putActs 0 [97, 98] 1 2) with
  | some (s, σ) => decide (0 < s.st.nblocks) &&
    match walkTrace twoKeys serialB (fun _ _ => true) (List.replicate 2 none ++ (delActs 0 [97, 98] 7).map some) s σ (minKeyP 10 []) with
    | some (s', σ', p') => loadsB 2 p' && decide (s'.st.nalloc = 1) && decide (s'.st.epoch = 0) && decide (s'.st.baNext = 1) &&
      decide (((s'.st.allocs 0).recycler 3).head? = some ⟨1, 0⟩) && decide ((s'.st.allocs 0).counter = 1) &&
      (s'.proc 0).isIdle && decide (σ'.map [97, 97] ≠ none)
    | none => false
  | none => false

theorem twoCheck_eq : twoCheck = true := by decide +kernel

/-- C25 does not hold, even if all updates and deletes run one after the other: the slot that `MinKey` is about to load is handed out for a
new node. -/
theorem C25_does_not_hold : ¬ C25_statement := by
  intro hC
  have h := twoCheck_eq
  unfold twoCheck at h
  split at h
  · rename_i s σ ht
    have hr := Run.trace (h := twoKeys_good) serial_sound (.init 1) ht
    simp only [Bool.and_eq_true, decide_eq_true_eq] at h
    obtain ⟨hnb, h⟩ := h
    split at h
    · rename_i s' σ' p' hw
      have hw' := Walks.ofTrace (h := twoKeys_good) (K := fun _ _ => True) serial_sound (fun _ _ _ => trivial) hr hw
      simp only [Bool.and_eq_true, decide_eq_true_eq] at h
      obtain ⟨⟨⟨⟨⟨⟨⟨h1, h2⟩, h3⟩, h4⟩, h5⟩, h6⟩, h7⟩, h8⟩ := h
      obtain ⟨k, rfl⟩ := loadsB_sound h1
      have hr' := (hw'.run hr).slim twoEnv_ab
      have hoff : ∀ b, s'.proc b = .idle := by
        intro b
        by_cases hb : b = 0
        · rw [hb]; exact Proc.idle_of h7
        · obtain ⟨_, _, _, hI, _⟩ := hr'
          exact hI.mem.off b (by omega)
      obtain ⟨s2, σ2, st', g1, g2, g3⟩ := Waits.reusable (env := twoEnv) twoEnv_ab (sz := 3) (by decide) twoEnv_short (k1 := [97, 97]) (k2 := [97, 98])
        (by decide) (by simp [twoEnv, Env.ofList, twoKeys]) (v := 1) (by decide +kernel) 1000 1 (by omega)
        ⟨hr', .inr ⟨hw', h2, h3, h5, by omega, by omega⟩⟩ hoff h2 h8 (by unfold maxBlockCount; omega)
      exact hC twoEnv 10 [] _ (.inl rfl) s σ s2 σ2 2 k hr hnb g1 0 [3] _ st' (by omega) (by simp [blockSlots]) g3 1 3 (by simp) (by omega)
    · cases h
  · cases h

end Radix
