import Verif.Properties.Concurrent
import Verif.Sys.Memory
/-!
# Properties C23, C24: memory
-/
set_option autoImplicit false
namespace Radix

/-! ## C23: live nodes never overlap in memory

`LiveNode st w`: the node reference `w` can be reached from the root of `st` through child slots; `Occupies st w p`: slot `p` belongs
to that node, prefix included (`Verif/Sys/Memory.lean`).  `newNodes st a sizes` allocates nodes of the given sizes for allocator `a`. -/

/-- C23 in state `st`. -/
structure Separate (st : St) : Prop where
  /-- Nodes with a common slot are the same node, reached through the same branch byte. -/
  nodes : ∀ w w' p, LiveNode st w → LiveNode st w' → Occupies st w p → Occupies st w' p → w = w'
  /-- A node other than the root has one parent slot; the root has none. -/
  parent : ∀ p p', LiveSlot st p → LiveSlot st p' → LiveNode st (st.mem p) → LiveNode st (st.mem p') →
    nodeAddr (st.mem p) = nodeAddr (st.mem p') → p = p'
  root : ∀ p, LiveSlot st p → LiveNode st (st.mem p) → LiveNode st st.root → nodeAddr (st.mem p) ≠ nodeAddr st.root
  /-- Memory handed out, to any allocator and for any number of nodes, overlaps neither reachable nodes nor other memory handed out,
  and slot 0 is never handed out.  (Nodes have at least 2 slots, and fit in a block.) -/
  fresh : ∀ a sizes r st', a < st.nalloc → (∀ z ∈ sizes, 2 ≤ z ∧ z + 1 < blockSlots) → newNodes st a sizes = .ok (r, st') →
    (∀ n z, (n, z) ∈ r → 0 < n ∧ ∀ p, n ≤ p → p < n + z → ∀ w, LiveNode st w → ¬ Occupies st w p) ∧
    r.Pairwise fun x y => ∀ p, ¬ (x.1 ≤ p ∧ p < x.1 + x.2 ∧ y.1 ≤ p ∧ p < y.1 + y.2)

/-- The full statement of C23. -/
def C23_statement : Prop :=
  ∀ (env : Env) (s : Sys) (σ : Spec), Run env (fun _ _ => True) s σ → Separate s.st

theorem segs_pairwise : ∀ {r : List (Nat × Nat)}, (∀ x, segs r x ≤ 1) →
    r.Pairwise fun x y => ∀ p, ¬ (x.1 ≤ p ∧ p < x.1 + x.2 ∧ y.1 ≤ p ∧ p < y.1 + y.2)
  | [], _ => .nil
  | x :: r, h => by
    refine .cons ?_ (segs_pairwise fun p => ?_)
    · rintro y hy p ⟨h1, h2, h3, h4⟩
      have := h p
      simp only [segs, List.map_cons, List.sum_cons] at this
      have hle : seg y.1 y.2 p ≤ (r.map fun q => seg q.1 q.2 p).sum := by
        clear this h
        induction r with
        | nil => cases hy
        | cons z r ih =>
          simp only [List.map_cons, List.sum_cons]
          rcases List.mem_cons.1 hy with rfl | hy
          · omega
          · have := ih hy
            omega
      unfold seg at this hle
      rw [if_pos ⟨h1, h2⟩] at this
      rw [if_pos ⟨h3, h4⟩] at hle
      omega
    · have := h p
      simp only [segs, List.map_cons, List.sum_cons] at this ⊢
      omega

theorem seg_le_segs {r : List (Nat × Nat)} {x : Nat × Nat} (h : x ∈ r) (p : Nat) : seg x.1 x.2 p ≤ segs r p := by
  unfold segs
  induction r with
  | nil => cases h
  | cons z r ih =>
    simp only [List.map_cons, List.sum_cons]
    rcases List.mem_cons.1 h with rfl | h
    · omega
    · have := ih h
      omega

theorem CoreN.separate {P st t N} (hc : CoreN P st t N) : Separate st := by
  refine ⟨?_, ?_, ?_, ?_⟩
  · intro w w' p h1 h2 o1 o2
    obtain ⟨q1, n1, pfx1, big1, ch1, hat1, rfl, g1⟩ := h1.tree' hc
    obtain ⟨q2, n2, pfx2, big2, ch2, hat2, rfl, g2⟩ := h2.tree' hc
    rw [g1] at o1
    rw [g2] at o2
    obtain ⟨rfl, e⟩ := hc.live_unique hat1 hat2 o1.1 o1.2 o2.1 o2.2
    rw [e]
  · intro p p' h1 h2 l1 l2 he
    obtain ⟨q1, n1, pfx1, big1, ch1, c1, hat1, hp1, rfl⟩ := (liveSlot_iff hc).1 h1
    obtain ⟨q2, n2, pfx2, big2, ch2, c2, hat2, hp2, rfl⟩ := (liveSlot_iff hc).1 h2
    have e1 := (hc.view (b := 0) hat1).mem.kid c1 hp1
    have e2 := (hc.view (b := 0) hat2).mem.kid c2 hp2
    rw [e1] at l1 he
    rw [e2] at l2 he
    obtain ⟨m1, pf1, b1, k1, hk1⟩ : ∃ m pf b k, ch1 c1 = .node m pf b k := by
      cases hk : ch1 c1 with
      | empty => rw [hk] at l1; exact absurd rfl l1.2.1
      | leaf k v => rw [hk] at l1; simp [wordOf, LiveNode] at l1
      | node m pf b k => exact ⟨_, _, _, _, rfl⟩
    obtain ⟨m2, pf2, b2, k2, hk2⟩ : ∃ m pf b k, ch2 c2 = .node m pf b k := by
      cases hk : ch2 c2 with
      | empty => rw [hk] at l2; exact absurd rfl l2.2.1
      | leaf k v => rw [hk] at l2; simp [wordOf, LiveNode] at l2
      | node m pf b k => exact ⟨_, _, _, _, rfl⟩
    have a1 := hat1.child c1
    have a2 := hat2.child c2
    rw [hk1] at a1 he
    rw [hk2] at a2 he
    rw [(hc.view a1).addr, (hc.view a2).addr] at he
    subst he
    have s1 := nodeSize_pos (by simpa using a1.wf hc.wf)
    have s2 := nodeSize_pos (by simpa using a2.wf hc.wf)
    obtain ⟨hq, _⟩ := hc.live_unique a1 a2 (Nat.le_refl _) (by omega) (Nat.le_refl _) (by omega)
    obtain ⟨rfl, rfl⟩ := hat1.parent hat2 hq
    cases hat1.det hat2
    rfl
  · intro p h1 l1 l2 he
    obtain ⟨q1, n1, pfx1, big1, ch1, c1, hat1, hp1, rfl⟩ := (liveSlot_iff hc).1 h1
    have e1 := (hc.view (b := 0) hat1).mem.kid c1 hp1
    rw [e1] at l1 he
    obtain ⟨m1, pf1, b1, k1, hk1⟩ : ∃ m pf b k, ch1 c1 = .node m pf b k := by
      cases hk : ch1 c1 with
      | empty => rw [hk] at l1; exact absurd rfl l1.2.1
      | leaf k v => rw [hk] at l1; simp [wordOf, LiveNode] at l1
      | node m pf b k => exact ⟨_, _, _, _, rfl⟩
    have a1 := hat1.child c1
    rw [hk1] at a1 he
    rw [hc.root] at l2 he
    obtain ⟨m2, pf2, b2, k2, rfl⟩ : ∃ m pf b k, t = .node m pf b k := by
      cases t with
      | empty => exact absurd rfl l2.2.1
      | leaf k v => simp [rootWord, LiveNode] at l2
      | node m pf b k => exact ⟨_, _, _, _, rfl⟩
    have a2 := At.here (T.node m2 pf2 b2 k2)
    rw [(hc.view a1).addr, rootWord_node, (hc.view (b := 0) a2).addr] at he
    subst he
    have s1 := nodeSize_pos (by simpa using a1.wf hc.wf)
    have s2 := nodeSize_pos (by simpa using a2.wf hc.wf)
    obtain ⟨hq, _⟩ := hc.live_unique a1 a2 (Nat.le_refl _) (by omega) (Nat.le_refl _) (by omega)
    simp at hq
  · intro a sizes r st' ha hsz h
    obtain ⟨e, hpos⟩ := newNodes_eff (N := N) sizes ha hsz hc.ok hc.n0 h
    have hcov : ∀ x, t.cover x + segs r x ≤ 1 := by
      intro x
      have h1 := e.cov x
      have h2 := hc.sep x
      omega
    refine ⟨fun n z hz => ⟨hpos _ hz, ?_⟩, segs_pairwise fun x => by have := hcov x; omega⟩
    intro p h1 h2 w hw ho
    obtain ⟨q, m, pfx, big, ch, hat, rfl, g⟩ := hw.tree' hc
    rw [g] at ho
    have k1 := T.cover_own ho.1 ho.2
    have k2 := hat.cover_le p
    have k3 := seg_le_segs hz p
    have k4 := hcov p
    unfold seg at k3
    rw [if_pos ⟨h1, h2⟩] at k3
    omega

/-- C23 does not hold: in the race of `C09_does_not_hold` allocator 2 recycles the node "aa", which is still reachable, and so it is handed
out.  (The allocation considered here happens while no operation is running, when everything recycled is available; for allocations of
running operations the same memory becomes available when the epoch has advanced.) -/
theorem C23_does_not_hold : ¬ C23_statement := by
  intro hall
  obtain ⟨s, σ, h1, h2⟩ := Run.ofCheck (h := raceKeys_good) (G := fun _ _ => True) (g := fun _ _ => true) (fun _ _ _ _ _ => trivial)
    (n := 4) (acts := raceActs)
    (check := fun s _ => (match follow s.st s.st.root [0, 0] with
      | some w => decide (nodeAddr w = 4) && decide (nodeEnd s.st w = some 6)
      | none => false) && (match newNodes s.st 2 [2] with
      | .ok (r, _) => decide (r = [(4, 2)])
      | .error _ => false) && decide (2 < s.st.nalloc)) (by decide +kernel)
  simp only [Bool.and_eq_true, decide_eq_true_eq] at h2
  obtain ⟨⟨h2, h3⟩, h4⟩ := h2
  split at h2
  · rename_i w hw
    simp only [Bool.and_eq_true, decide_eq_true_eq] at h2
    split at h3
    · rename_i r st' hr
      obtain rfl := of_decide_eq_true h3
      have := (((hall _ s σ h1).fresh 2 [2] _ st' h4 (by simp [blockSlots_eq]) hr).1 4 2 (by simp)).2 4 (by omega) (by omega) w
        (follow_sound .root hw)
      exact this (nodeEnd_sound h2.2 (by omega) (by omega))
    · cases h3
  · cases h2

/-- C23, for executions in which the races listed at `Calm` do not show.  (For the full
statement see `C23_does_not_hold`.) -/
theorem C23_live_nodes_disjoint_partial {env : Env} {s : Sys} {σ : Spec} (h : Run env Calm s σ) : Separate s.st := by
  obtain ⟨t, seen, hI⟩ := h.inv
  exact hI.mem.core.separate

/-- C23 for histories of one writer at a time, with any number of concurrent lookups. -/
theorem C23_live_nodes_disjoint_one_writer {env : Env} {s : Sys} {σ : Spec} (h : Run env OneWriter s σ) : Separate s.st := by
  obtain ⟨t, seen, hI⟩ := h.oneWriter.1.inv
  exact hI.mem.core.separate

/-- After the inserts of the demo the tree has three nodes, and three more nodes can be allocated, one of them from recycled memory. -/
example : ∃ s σ, Run demoEnv OneWriter s σ ∧ (∃ w, LiveNode s.st w ∧ Occupies s.st w 262147) ∧ (∃ w, LiveNode s.st w ∧ Occupies s.st w 262144) ∧
    (∃ w, LiveNode s.st w ∧ Occupies s.st w 262149) ∧
    ∃ st', newNodes s.st 0 [2, 3, 258] = .ok ([(262151, 2), (1, 3), (262153, 258)], st') := by
  obtain ⟨s, σ, h1, h2⟩ := Run.ofCheck (h := demoKeys_good) (G := OneWriter) oneWriter_sound (n := 3) (acts := demoActs.take 33)
    (check := fun s _ => [([], 262147), ([0], 262144), ([1], 262149)].all (fun (x : List Nat × Nat) =>
      match follow s.st s.st.root x.1 with
      | some w => decide (nodeAddr w = x.2) && (match nodeEnd s.st w with | some e => decide (x.2 < e) | none => false)
      | none => false) && (match newNodes s.st 0 [2, 3, 258] with
      | .ok (r, _) => decide (r = [(262151, 2), (1, 3), (262153, 258)])
      | .error _ => false)) (by decide +kernel)
  simp only [List.all_cons, List.all_nil, Bool.and_true, Bool.and_eq_true] at h2
  have key : ∀ l p, (match follow s.st s.st.root l with
      | some w => decide (nodeAddr w = p) && (match nodeEnd s.st w with | some e => decide (p < e) | none => false)
      | none => false) = true → ∃ w, LiveNode s.st w ∧ Occupies s.st w p := by
    intro l p h
    split at h
    · rename_i w hw
      simp only [Bool.and_eq_true, decide_eq_true_eq] at h
      split at h
      · rename_i e he
        exact ⟨w, follow_sound .root hw, nodeEnd_sound he (by omega) (of_decide_eq_true h.2)⟩
      · cases h.2
    · cases h
  refine ⟨s, σ, h1, key _ _ h2.1.1, key _ _ h2.1.2.1, key _ _ h2.1.2.2, ?_⟩
  have h3 := h2.2
  split at h3
  · rename_i r st' hr
    exact ⟨st', by rw [← of_decide_eq_true h3]; exact hr⟩
  · cases h3

/-! ## C24: memory is not reused under a running reader -/

/-- The execution continues from `s`, `σ`, without allocator `a` beginning a new operation. -/
inductive Continues (env : Env) (G : Sys → Act → Prop) (a : Nat) (s : Sys) (σ : Spec) : Sys → Spec → Prop
  | refl : Continues env G a s σ s σ
  | step {s1 σ1 act s2 ev} : Continues env G a s σ s1 σ1 → env.Allowed s1 act → G s1 act →
      exec env.fetch s1 act = some (.ok (s2, ev)) → (∀ c, ev ≠ .begun a c) → Continues env G a s σ s2 (σ1.next ev)

/-- The full statement of C24: slot `p` of a node that is reachable at some moment (`s`) while the operation of `a` is running is
not handed out, to any allocator `b`, at any later moment (`s'`) until that operation has ended. -/
def C24_statement : Prop :=
  ∀ (env : Env) (a : Nat) (s : Sys) (σ : Spec) (s' : Sys) (σ' : Spec) (w : Word) (p : Nat), Run env (fun _ _ => True) s σ →
    (s.proc a).active = true → LiveNode s.st w → Occupies s.st w p → Continues env (fun _ _ => True) a s σ s' σ' →
    (s'.proc a).active = true → ∀ b sizes r st', b < s'.st.nalloc → (∀ z ∈ sizes, 2 ≤ z ∧ z + 1 < blockSlots) →
      newNodes s'.st b sizes = .ok (r, st') → ∀ n z, (n, z) ∈ r → ¬ (n ≤ p ∧ p < n + z)

theorem Continues.inv {env : Env} {a : Nat} {s s' : Sys} {σ σ' : Spec} (h : Continues env Calm a s σ s' σ') {t : T} {seen : Nat → T → Prop}
    (hI : Inv env s σ t seen) : ∃ t' seen', Inv env s' σ' t' seen' ∧ ∀ x, seen a x → seen' a x := by
  induction h with
  | refl => exact ⟨t, seen, hI, fun _ h => h⟩
  | step _ h1 h2 h3 h4 ih =>
    obtain ⟨t1, seen1, hI1, hs1⟩ := ih
    rcases exec_inv hI1 h1 h2 h3 with ⟨s2, ev, t2, seen2, e, hI2, hs2, _⟩ | ⟨e, he, _⟩
    · injection e with e; injection e with e1 e2; subst e1 e2
      exact ⟨t2, seen2, hI2, fun x hx => hs2.1 a x h4 (hs1 x hx)⟩
    · cases he

/-- C24, for executions in which the races listed at `Calm` do not show. -/
theorem C24_no_reuse_under_a_reader_partial {env : Env} {a : Nat} {s s' : Sys} {σ σ' : Spec} {w : Word} {p : Nat} (h : Run env Calm s σ)
    (ha : (s.proc a).active = true) (hw : LiveNode s.st w) (ho : Occupies s.st w p) (hc : Continues env Calm a s σ s' σ')
    (ha' : (s'.proc a).active = true) {b : Nat} {sizes : List Nat} {r : List (Nat × Nat)} {st' : St} (hb : b < s'.st.nalloc)
    (hsz : ∀ z ∈ sizes, 2 ≤ z ∧ z + 1 < blockSlots) (hn : newNodes s'.st b sizes = .ok (r, st')) {n z : Nat} (hz : (n, z) ∈ r) :
    ¬ (n ≤ p ∧ p < n + z) := by
  rintro ⟨h1, h2⟩
  obtain ⟨t, seen, hI⟩ := h.inv
  obtain ⟨t', seen', hI', hs⟩ := hc.inv hI
  obtain ⟨q, m, pfx, big, ch, hat, rfl, g⟩ := hw.tree' hI.mem.core
  rw [g] at ho
  have hcov : 0 < t.cover p := Nat.lt_of_lt_of_le (T.cover_own ho.1 ho.2) (hat.cover_le p)
  have hok := hI'.mem.ok a t ha' (hs t (hI.mem.now a ha))
  have hp := hok.prot p hcov
  obtain ⟨e, _⟩ := newNodes_eff (N := fun _ => 0) sizes hb hsz hI'.mem.core.ok rfl hn
  have k1 := e.avail p
  have k2 : freeP (availNow s'.st) s'.st p ≤ freeP (fun e => decide (e < s'.st.resv a)) s'.st p := by
    apply freeP_mono
    intro e he
    have := minReservation_le (hI'.lt_of_active ha')
    simp only [availNow, decide_eq_true_eq] at he ⊢
    omega
  have k3 := seg_le_segs hz p
  unfold seg at k3
  rw [if_pos ⟨h1, h2⟩] at k3
  omega

theorem Continues.trace {l h} {G : Sys → Act → Prop} {g : Sys → Act → Bool} {a : Nat}
    (hg : ∀ s σ act, Run (Env.ofList l h) G s σ → g s act = true → G s act) {s0 : Sys} {σ0 : Spec} :
    ∀ {acts : List Act} {s σ s' σ'}, Run (Env.ofList l h) G s σ → Continues (Env.ofList l h) G a s0 σ0 s σ → (∀ act ∈ acts, act ≠ .arm a) →
      Radix.trace l g s σ acts = some (s', σ') → Continues (Env.ofList l h) G a s0 σ0 s' σ'
  | [], s, σ, s', σ', _, hr, _, ht => by
    simp only [Radix.trace, Option.some.injEq, Prod.mk.injEq] at ht
    obtain ⟨rfl, rfl⟩ := ht
    exact hr
  | act :: acts, s, σ, s', σ', hrun, hr, hn, ht => by
    simp only [Radix.trace] at ht
    split at ht
    · rename_i hb
      simp only [Bool.and_eq_true] at hb
      split at ht
      · rename_i s1 ev he
        refine Continues.trace hg (.step hrun (allowedB_sound hb.1) (hg _ _ _ hrun hb.2) he)
          (.step hr (allowedB_sound hb.1) (hg _ _ _ hrun hb.2) he ?_) (fun act h => hn act (by simp [h])) ht
        rintro c rfl
        have : act = .arm a := by
          rcases act_cases act with ⟨b, rfl⟩ | ⟨b, rfl⟩ | ⟨b, rfl⟩ | hn
          · cases (exec_slip_ok he).1
          · cases (exec_unlock_ok he).1
          · cases (exec_quit_ok he).1
          cases act <;> first | cases hn; done | skip
          all_goals simp only [exec] at he <;> (repeat' split at he) <;> first
            | (cases he; done)
            | (cases he; rfl)
            | (simp only [Option.some.injEq, bind, Except.bind, pure, Except.pure] at he
               (repeat' split at he) <;> first | (cases he; done) | (cases he; split at * <;> simp_all; done))
        exact hn act (by simp) this
      · cases ht
    · cases ht

/-- Two stages of an execution, in between which allocator `a` begins no operation. -/
def checkTrace2 (l : List Key) (g : Sys → Act → Bool) (n a : Nat) (acts : List Act) (check : Sys → Spec → Bool) (acts' : List Act)
    (check' : Sys → Spec → Bool) : Bool :=
  match trace l g (Sys.new n) .init acts with
  | some (s, σ) => check s σ && acts'.all (fun act => decide (act ≠ .arm a)) &&
    match trace l g s σ acts' with
    | some (s', σ') => check' s' σ'
    | none => false
  | none => false

theorem Continues.ofCheck {l h} {G : Sys → Act → Prop} {g : Sys → Act → Bool}
    (hg : ∀ s σ act, Run (Env.ofList l h) G s σ → g s act = true → G s act) {n a acts check acts' check'}
    (hc : checkTrace2 l g n a acts check acts' check' = true) :
    ∃ s σ s' σ', Run (Env.ofList l h) G s σ ∧ check s σ = true ∧ Continues (Env.ofList l h) G a s σ s' σ' ∧ check' s' σ' = true := by
  unfold checkTrace2 at hc
  split at hc
  · rename_i s σ ht
    simp only [Bool.and_eq_true] at hc
    have hc2 := hc.2
    split at hc2
    · rename_i s' σ' ht'
      have hr := Run.trace hg (.init n) ht
      exact ⟨s, σ, s', σ', hr, hc.1.1, Continues.trace hg hr .refl (fun act ha => of_decide_eq_true (List.all_eq_true.1 hc.1.2 act ha)) ht', hc2⟩
    · cases hc2
  · cases hc

/-- While a lookup is running, "bob" is deleted, which unlinks the node at slot 262149; this memory is then recycled by
allocator 1, but not handed out. -/
example : ∃ s σ s' σ', Run demoEnv Calm s σ ∧ (s.proc 2).active = true ∧ (∃ w, LiveNode s.st w ∧ Occupies s.st w 262149) ∧
    Continues demoEnv Calm 2 s σ s' σ' ∧ (s'.proc 2).active = true ∧ ⟨262149, 0⟩ ∈ (s'.st.allocs 1).recycler 2 ∧
    ∃ st', newNodes s'.st 1 [2] = .ok ([(4, 2)], st') := by
  obtain ⟨s, σ, s', σ', h1, h2, h3, h4⟩ := Continues.ofCheck (h := demoKeys_good) (G := Calm) calm_sound (n := 3) (a := 2)
    (acts := demoActs.take 33 ++ [.begin 2 (.lookup [97]), .arm 2])
    (check := fun s _ => (s.proc 2).active && match follow s.st s.st.root [1] with
      | some w => decide (nodeAddr w = 262149) && (match nodeEnd s.st w with | some e => decide (262149 < e) | none => false)
      | none => false)
    (acts' := delActs 1 [98, 111, 98] 11)
    (check' := fun s _ => (s.proc 2).active && decide (⟨262149, 0⟩ ∈ (s.st.allocs 1).recycler 2) && (match newNodes s.st 1 [2] with
      | .ok (r, _) => decide (r = [(4, 2)])
      | .error _ => false)) (by decide +kernel)
  simp only [Bool.and_eq_true, decide_eq_true_eq] at h2 h4
  refine ⟨s, σ, s', σ', h1, h2.1, ?_, h3, h4.1.1, h4.1.2, ?_⟩
  · have h := h2.2
    split at h
    · rename_i w hw
      simp only [Bool.and_eq_true, decide_eq_true_eq] at h
      split at h
      · rename_i e he
        exact ⟨w, follow_sound .root hw, nodeEnd_sound he (by omega) (of_decide_eq_true h.2)⟩
      · cases h.2
    · cases h
  · have h := h4.2
    split at h
    · rename_i r st' hr
      exact ⟨st', by rw [← of_decide_eq_true h]; exact hr⟩
    · cases h

end Radix
