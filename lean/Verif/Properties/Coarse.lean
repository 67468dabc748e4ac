import Verif.Sys.Coarse
import Verif.Properties.Torn
/-!
# C61: uninterrupted steps are made of single accesses

In `Verif/Model/Sys.lean` reading a node, a lock call, releasing the locks and publishing a change are steps that nobody interrupts.  Here: whatever
such an execution leads to, an execution leads to in which every access to shared memory is a step (`Verif/Model/Fine.lean`).  So the
executions found that violate a property (C48, ...) are executions of the code, and not of a model with steps that are too large.

The steps `slip` are left out: they stand for what an operation reads of the locks that others hold in the middle of such a step.
-/
set_option autoImplicit false
namespace Radix

/-- All steps but `slip`. -/
def NoSlip (_ : Sys) (act : Act) : Prop := ∀ a, act ≠ .slip a

section
variable {env : Env} {s : Sys} {σ : Spec}

/-- C61: every execution with uninterrupted steps leads to a state that single accesses lead to, too, with the same calls finished. -/
theorem C61_single_accesses (h : Run env NoSlip s σ) : FRun env (fun _ _ => True) ⟨s, fun _ => .none⟩ σ :=
  h.fine fits_any fun _ a _ h => absurd rfl (h a)

/-- C61: if the execution meets the restriction of C09, the execution with single accesses meets the one of C45. -/
theorem C61_calm (h : Run env (fun s act => Calm s act ∧ NoSlip s act) s σ) : FRun env FCalm ⟨s, fun _ => .none⟩ σ :=
  (h.calmNodes fun _ _ h => h.1).fine (fits_calm fun _ _ h => h.1) fun _ a _ h => absurd rfl (h.2.2 a)

/-- C61: conversely, when no operation is in the middle of a step, what single accesses have led to is what uninterrupted steps lead to, for the
restrictions of C45 and C09 (lock words are compared as the code reads them). -/
theorem C61_calm_at_rest (h : FRun env FCalm ⟨s, fun _ => .none⟩ σ) :
    ∃ s', Run env Calm s' σ ∧ s'.proc = s.proc ∧ s.st = { s'.st with locks := s.st.locks } ∧ ∀ n, s.st.gen n = s'.st.gen n := by
  obtain ⟨s', t, seen, hF⟩ := h.rel
  refine ⟨s', hF.run, hF.proc.symm, ?_, fun n => hF.locks.same n fun _ _ hx => absurd hx List.not_mem_nil⟩
  have hr : s.st.rootLock = s'.st.rootLock := by
    rcases hF.locks.root with ⟨_, h1, _⟩ | ⟨_, h1⟩
    · cases h1
    · exact h1
  have := hF.st
  simp only [hr] at this
  exact this

end

/-- There are executions that meet these restrictions with two prepared updates that hold locks at the same time; single accesses lead there. -/
example : ∃ s σ, Run (Env.ofList deepKeys deepKeys_good) (fun s act => Calm s act ∧ NoSlip s act) s σ ∧
    FRun (Env.ofList deepKeys deepKeys_good) FCalm ⟨s, fun _ => .none⟩ σ ∧ (∃ found op, s.proc 0 = .upd (.held found op)) ∧
    (∃ found op, s.proc 1 = .upd (.held found op)) := by
  obtain ⟨s, σ, h1, h2⟩ := Run.ofCheck (h := deepKeys_good) (G := fun s act => Calm s act ∧ NoSlip s act)
    (g := fun s act => calmB s act && (match act with | .slip _ => false | _ => true)) (fun s σ act h hb => by
      rw [Bool.and_eq_true] at hb
      refine ⟨calm_sound s σ act (h.mono fun _ _ h => h.1) hb.1, ?_⟩
      rintro a rfl
      exact absurd hb.2 (by simp)) (n := 2)
    (acts := deepActs ++ [.begin 0 (.update [97, 97, 97]), .arm 0] ++ List.replicate 14 (.run 0) ++
      [.begin 1 (.update [98, 97, 97]), .arm 1] ++ List.replicate 14 (.run 1))
    (check := fun s _ => (match s.proc 0 with | .upd (.held _ _) => true | _ => false) &&
      (match s.proc 1 with | .upd (.held _ _) => true | _ => false)) (by decide +kernel)
  simp only [Bool.and_eq_true] at h2
  obtain ⟨h3, h4⟩ := h2
  refine ⟨s, σ, h1, C61_calm h1, ?_, ?_⟩
  · split at h3
    · exact ⟨_, _, by assumption⟩
    · cases h3
  · split at h4
    · exact ⟨_, _, by assumption⟩
    · cases h4

/-- In executions of whole calls nobody meets a lock held for a moment. -/
theorem WholeCalls.noSlip {fetch : Word → Key} {s : Sys} {a : Nat} (h : WholeCalls s (.slip a)) (r : Sys × Ev) :
    exec fetch s (.slip a) ≠ some (.ok r) := by
  intro he
  have hw : (s.proc a).writer = true := by
    simp only [exec] at he
    split at he
    · cases hp : s.proc a with
      | upd ph => cases ph <;> simp only [hp, slipU] at he <;> first | rfl | cases he
      | del ph => cases ph <;> simp only [hp, slipD] at he <;> first | rfl | cases he
      | _ => simp only [hp] at he; cases he
    · cases he
  have hc : s.contended a = false := by
    unfold Sys.contended
    rw [List.any_eq_false]
    intro b _
    by_cases hb : b = a
    · simp [hb]
    · have := h.1 a b rfl (Ne.symm hb) (.inl hw)
      have hl : (s.proc b).locking = false := by
        cases hp : s.proc b with
        | upd ph => rw [hp] at this; cases ph <;> first | rfl | cases this
        | del ph => rw [hp] at this; cases ph <;> first | rfl | cases this
        | _ => rfl
      simp [hl]
  simp only [exec, hc] at he
  cases he

/-- C61: the delete lost in C48 is lost with single accesses, too. -/
theorem C61_lost_delete : ∃ s σ, FRun wideEnv (fun _ _ => True) ⟨s, fun _ => .none⟩ σ ∧ (∀ b, s.proc b = .idle) ∧ σ.map [98, 0] = none ∧
    content wideEnv.fetch s.st [98, 0] = some 0 := by
  obtain ⟨s, σ, h1, h2⟩ := lost_delete
  exact ⟨s, σ, h1.fine fits_any fun _ _ r h => h.noSlip r, h2⟩

/-! ## C60 does not hold in full -/

theorem TRun.mono {env : Env} {G G' : TSys → TAct → Prop} (hG : ∀ τ act, G τ act → G' τ act) {τ : TSys} {σ : Spec} (h : TRun env G τ σ) :
    TRun env G' τ σ := by
  induction h with
  | init n => exact .init n
  | reload _ hs ih => exact .reload ih hs
  | step _ hall hg he ih => exact .step ih hall (hG _ _ hg) he

theorem fills_priv {cur : DelCur} {cm : Commit} {x : Nat} (h : (Proc.delB cur cm).fills x = true) : 0 < cm.priv x := by
  simp only [Proc.fills, List.any_eq_true, decide_eq_true_eq] at h
  obtain ⟨n, h1, h2⟩ := h
  unfold Commit.priv
  have h3 : seg n.1 n.2 x = 1 := by unfold seg; rw [if_pos h2]
  have := le_sum_of_mem (List.mem_map.2 ⟨n, h1, rfl⟩ : seg n.1 n.2 x ∈ cm.nodes.map fun ns => seg ns.1 ns.2 x)
  omega

/-- Two deletes are prepared, of "b\x00" and of "a"; "b\x00" is in a 256-slot node, which the delete of "a" copies.  It has loaded the word of "b\x00"
when the other delete is finalized, and returns true.  Then the copy is published, with the word loaded: the key is there again. -/
theorem torn_copy : ∃ τ σ, TRun wideEnv TFine τ σ ∧ σ.map [98, 0] = none ∧ content wideEnv.fetch τ.f.sys.st [98, 0] = some 0 := by
  obtain ⟨s0, σ0, _, r0, idle0, map0, ba0, na0⟩ := wide_stateN (n := 2) (by decide)
  have r0 := r0.orderly
  obtain ⟨s1, cur0, r1, p1, c0, f0, now0, o1, _, t1⟩ := delete_rests (a := 0) (key := [98, 0]) r0 (fun b _ => by rw [idle0]; exact ⟨rfl, rfl, rfl⟩)
    (idle0 0) (by omega) (by rw [map0, wideMap_b]; simp)
  have map1 : (σ0.next (.begun 0 (.delete [98, 0]))).map = wideMap := map0
  generalize σ0.next (.begun 0 (.delete [98, 0])) = σ1 at r1 map1
  -- the delete of "b\x00" holds no lock
  have hkind0 : cur0.op.kind = .deleteLeaf256 := by
    obtain ⟨t, seen, hI, hd⟩ := (r1.mono fun _ _ h => h.1).insertOnly
    obtain ⟨n, ch, n2, ch2, k, v, e1, e2, e3, e4, e5⟩ := wide_shape hd hI.mem.core.wf (fun k v => by rw [hI.mem.content, map1])
    rcases wide_kind hI e1 e2 e3 e4 e5 p1 now0 with h | ⟨_, h, _⟩
    · exact h.1
    · rw [f0] at h; exact absurd rfl h
  obtain ⟨s2, cur1, r2, p2, c1, f1, now1, o2, _, t2⟩ := delete_rests (a := 1) (key := [97]) r1 (by
      intro b hb
      by_cases hb0 : b = 0
      · subst hb0
        rw [p1]
        exact ⟨rfl, by simp [Proc.unl, DelOp.unl, hkind0], rfl⟩
      · rw [o1 b hb0, idle0]; exact ⟨rfl, rfl, rfl⟩)
    (by rw [o1 1 (by omega)]; exact idle0 1) (by rw [t1.nalloc]; omega) (by rw [map1, wideMap_a]; simp)
  have map2 : (σ1.next (.begun 1 (.delete [97]))).map = wideMap := map1
  generalize σ1.next (.begun 1 (.delete [97])) = σ2 at r2 map2
  have q2 : s2.proc 0 = .del (.held cur0) := by rw [o2 0 (by omega)]; exact p1
  have idle2 : ∀ b, b ≠ 0 → b ≠ 1 → s2.proc b = .idle := by
    intro b h0 h1
    rw [o2 b h1, o1 b h0, idle0]
  obtain ⟨t, seen, hI2, hd⟩ := (r2.mono fun _ _ h => h.1).insertOnly
  obtain ⟨n, ch, n2, ch2, k, v, e1, e2, e3, e4, e5⟩ := wide_shape hd hI2.mem.core.wf (fun k v => by rw [hI2.mem.content, map2])
  obtain ⟨_, _, ⟨kb, hptr⟩, hlf, hload⟩ | ⟨h, _⟩ := wide_kind hI2 e1 e2 e3 e4 e5 q2 (big_now now0 t2)
  case inr => rw [hkind0] at h; cases h
  obtain ⟨_, h, _⟩ | ⟨hkind1, _, hchild, hps, hcount⟩ := wide_kind hI2 e1 e2 e3 e4 e5 p2 now1
  · rw [f1] at h; cases h
  have hrange := childSlot_range (a := n2) (pfx := []) (big := true) (ch := ch2) (c := kb) (.inl rfl)
  have hsize : nodeSize [] true ch2 = 256 := rfl
  generalize hp : childSlot n2 [] true ch2 kb = p at hptr hrange
  rw [hsize] at hrange
  have hcov : 0 < t.cover p := by
    have hat : At t ([] ++ 98 :: []) (.node n2 [] true ch2) := by rw [e1]; exact .down (by rw [e4]; exact .here _)
    exact hat.cover_node (by omega) (by rw [hsize]; exact hrange.2)
  have hmem2 : s2.st.mem p = cur0.op.raw := by rw [← hload, hptr]; rfl
  have hproc0 : cur1.op.data.base = n2 := by
    have h := hI2.proc 1
    rw [p2] at h
    obtain ⟨_, hk⟩ := h
    rcases hk with ⟨h1, _⟩ | ⟨h1, _⟩ | ⟨_, _, _, _, _, _, _, _, _, _, _, _, _, _, h6⟩ | ⟨h1, _⟩
    · rw [hkind1] at h1; cases h1
    · rcases h1 with h1 | h1 <;> (rw [hkind1] at h1; cases h1)
    · rw [h6, hchild]
    · rw [hkind1] at h1; cases h1
  have F2 : FRun wideEnv FCalm s2.rest σ2 :=
    (r2.calmNodes fun _ _ h => h.1.1).fine (fits_calm fun _ _ h => h.1) fun _ _ r h => h.2.2.noSlip r
  have T2 : TRun wideEnv TFine ⟨s2.rest, fun _ => []⟩ σ2 := F2.torn.mono fun τ act h => by
    cases act with
    | load a x => trivial
    | act act => exact h.1
  -- the word of "b\x00" is loaded
  have T3 : TRun wideEnv TFine ⟨s2.rest, upd (fun _ => []) 1 [(p, cur0.op.raw)]⟩ σ2 :=
    .step (act := .load 1 p) (ev := .none) T2 trivial trivial (by
      have : (s2.rest.sys.proc 1).copies p := by
        show (s2.proc 1).copies p
        rw [p2]
        simp only [Proc.copies, Proc.source, hkind1, hps, hcount, hproc0]
        omega
      simp only [texec, if_pos this]
      show some (Except.ok ((⟨s2.rest, upd (fun _ => []) 1 [(p, s2.st.mem p)]⟩ : TSys), Ev.none)) = _
      rw [hmem2])
  -- the delete of "b\x00" is finalized
  have T4 : TRun wideEnv TFine ⟨(s2.set 0 s2.st (.delB cur0 { ptr := .slot p, exp := some cur0.op.raw, new := 0, ok := { items := -1 } })).rest,
      upd (fun _ => []) 1 [(p, cur0.op.raw)]⟩ σ2 :=
    .step (act := .act (.build 0 0)) (ev := .none) T3 (by
        show wideEnv.Allowed s2 (.build 0 0)
        simp only [Env.Allowed, q2, f0]; exact c0.symm) trivial (by
      have hg : upd (fun _ : Nat => ([] : List (Nat × Word))) 1 [(p, cur0.op.raw)] 0 = [] := upd_of_ne _ _ (by decide)
      have hb : buildD s2.st 0 cur0.op = .ok ({ ptr := .slot p, exp := some cur0.op.raw, new := 0, ok := { items := -1 } }, s2.st) := by
        unfold buildD; rw [hkind0, hptr]; rfl
      have hpm : s2.rest.withMem (patch s2.rest.sys.st.mem []) = s2.rest := rfl
      have he : exec wideEnv.fetch s2 (.build 0 0) =
          some (.ok (s2.set 0 s2.st (.delB cur0 { ptr := .slot p, exp := some cur0.op.raw, new := 0, ok := { items := -1 } }), .none)) := by
        simp only [exec, q2, hkind0, hb]; rfl
      have hu : upd (upd (fun _ : Nat => ([] : List (Nat × Word))) 1 [(p, cur0.op.raw)]) 0 [] = upd (fun _ => []) 1 [(p, cur0.op.raw)] := by
        funext x
        by_cases hx : x = 0
        · subst hx; rw [upd_same, hg]
        · rw [upd_of_ne _ _ hx]
      simp only [texec, tbuild, hg, hpm, fexec, FAct.act]
      rw [show s2.rest.sys = s2 from rfl, he]
      simp only [Option.map_some, bind, Except.bind, pure, Except.pure, hu, List.any_nil, Bool.false_eq_true, if_false, ite_self]
      rfl)
  have hn0 : ∀ b, (s2.proc b).copied p = 0 := by
    intro b
    by_cases hb0 : b = 0
    · subst hb0; rw [q2]; rfl
    by_cases hb1 : b = 1
    · subst hb1; rw [p2]; rfl
    rw [idle2 b hb0 hb1]; rfl
  have T5 : TRun wideEnv TFine ⟨(s2.set 0 { s2.st with mem := upd s2.st.mem p 0 } (.del (.tail true { items := -1 }))).rest,
      upd (fun _ => []) 1 [(p, cur0.op.raw)]⟩ (σ2.next (.del cur0.key)) :=
    .step (act := .act (.commit 0)) T4 trivial (by
      simp only [TFine, FCalm, FAct.act, Sys.rest, Calm, Sys.set_self]
      intro _ _
      have hl : LiveSlot s2.st p := by
        rw [liveSlot_iff hI2.mem.core]
        refine ⟨_, n2, [], true, ch2, kb, (by rw [e1]; exact .down (pfx := []) (by rw [e4]; exact .here _) : At t ([] ++ 98 :: []) _), .inl rfl, hp.symm⟩
      refine ⟨p, hptr, hl, ?_⟩
      rintro ⟨b, hb⟩
      by_cases hb0 : b = 0
      · subst hb0
        rw [Sys.set_self] at hb
        simp [Proc.copied, Proc.cm?, Tail.seg] at hb
      · rw [Sys.set_other _ _ _ _ hb0, hn0] at hb
        omega) (by
      have hc : s2.st.commit { ptr := .slot p, exp := some cur0.op.raw, new := 0, ok := { items := -1 } } =
          (true, { items := -1 }, { s2.st with mem := upd s2.st.mem p 0 }) := by
        simp [St.commit, St.cas, St.load, hmem2, St.store]
      have he : exec wideEnv.fetch (s2.set 0 s2.st (.delB cur0 { ptr := .slot p, exp := some cur0.op.raw, new := 0, ok := { items := -1 } })) (.commit 0) =
          some (.ok (s2.set 0 { s2.st with mem := upd s2.st.mem p 0 } (.del (.tail true { items := -1 })), .del cur0.key)) := by
        simp only [exec, Sys.set_self, Sys.set_st, hc, Sys.set_set, if_true]
      simp only [texec, fexec, FAct.act, TSys.gotAfter]
      rw [show (Sys.rest (s2.set 0 s2.st (.delB cur0 { ptr := .slot p, exp := some cur0.op.raw, new := 0, ok := { items := -1 } }))).sys =
        s2.set 0 s2.st (.delB cur0 { ptr := .slot p, exp := some cur0.op.raw, new := 0, ok := { items := -1 } }) from rfl, he]
      rfl)
  -- the delete of "a": its node is built with the word loaded before
  have hall : wideEnv.Allowed s2 (.build 1 0) := by
    simp only [Env.Allowed, p2, f1]; exact c1.symm
  obtain hno | ⟨cm, st3, hb, heff, hI3⟩ := buildD_inv hI2 p2 hall
  · exfalso
    have h1 := (publishD_needs s2.st 1 cur1.op).2 (by
      rw [publishD_eq _ _ _ (by rw [hkind1]; simp), hno]; rfl)
    rw [t2.baNext, t1.baNext] at h1
    unfold maxBlockCount at h1
    omega
  have p3 : (s2.set 1 st3 (.delB cur1 cm)).proc 1 = .delB cur1 cm := by rw [Sys.set_self]
  have act3 : ((s2.set 1 st3 (.delB cur1 cm)).proc 1).active = true := by rw [p3]; rfl
  have hfill : (Proc.delB cur1 cm).fills p = false := by
    cases hf : (Proc.delB cur1 cm).fills p with
    | false => rfl
    | true =>
      exfalso
      have h0 := fills_priv hf
      have h1 := hI3.mem.core.sep p
      have h2 : ((s2.set 1 st3 (.delB cur1 cm)).proc 1).pend p ≤ (s2.set 1 st3 (.delB cur1 cm)).pend p :=
        le_sum_of_mem (List.mem_map.2 ⟨1, List.mem_range.2 (hI3.lt_of_active act3), rfl⟩)
      have h3 : cm.priv p ≤ ((s2.set 1 st3 (.delB cur1 cm)).proc 1).pend p := by
        rw [p3]
        simp only [Proc.pend, Proc.tail?, Proc.priv, Proc.cm?]
        omega
      omega
  generalize hs5 : s2.set 0 { s2.st with mem := upd s2.st.mem p 0 } (.del (.tail true { items := -1 })) = s5 at T5
  have p5 : s5.proc 1 = .del (.held cur1) := by rw [← hs5, Sys.set_other _ _ _ _ (by decide), p2]
  have hst5 : s5.st = { s2.st with mem := upd s2.st.mem p 0 } := by rw [← hs5]; rfl
  have T6 : TRun wideEnv TFine ⟨(s5.set 1 { st3 with mem := upd st3.mem p 0 } (.delB cur1 cm)).rest, fun _ => []⟩ (σ2.next (.del cur0.key)) :=
    .step (act := .act (.build 1 0)) (ev := .none) T5 (by
        show wideEnv.Allowed s5 (.build 1 0)
        simp only [Env.Allowed, p5, f1]; exact c1.symm) trivial (by
      have hg : upd (fun _ : Nat => ([] : List (Nat × Word))) 1 [(p, cur0.op.raw)] 1 = [(p, cur0.op.raw)] := upd_same _ _ _
      have hpm : { s5.st with mem := patch s5.st.mem [(p, cur0.op.raw)] } = s2.st := by
        rw [hst5]
        have : patch (upd s2.st.mem p 0) [(p, cur0.op.raw)] = s2.st.mem := by
          funext x
          unfold patch
          by_cases hx : x = p
          · subst hx; simp [hmem2]
          · have : (x == p) = false := by simp [hx]
            simp [List.lookup, upd_of_ne _ _ hx, this]
        simp only [this]
      have he : exec wideEnv.fetch (s5.rest.withMem (patch s5.st.mem [(p, cur0.op.raw)])).sys (.build 1 0) =
          some (.ok (s5.set 1 st3 (.delB cur1 cm), .none)) := by
        have : (s5.rest.withMem (patch s5.st.mem [(p, cur0.op.raw)])).sys = ⟨s2.st, s5.proc⟩ := by
          simp only [FSys.withMem, Sys.rest, hpm]
        rw [this]
        simp only [exec, p5, hkind1, hb]
        rfl
      have hu : upd (upd (fun _ : Nat => ([] : List (Nat × Word))) 1 [(p, cur0.op.raw)]) 1 [] = fun _ => [] := by
        rw [upd_upd]; exact upd_self _ 1
      have hm : (fun x => if (Proc.delB cur1 cm).fills x then st3.mem x else
          if [(p, cur0.op.raw)].any (fun y => y.1 == x) then s5.st.mem x else st3.mem x) = upd st3.mem p 0 := by
        funext x
        by_cases hx : x = p
        · subst hx
          simp [hfill, hst5]
        · have : (p == x) = false := by simp [Ne.symm hx]
          simp [this, upd_of_ne _ _ hx]
      simp only [texec, tbuild, hg, fexec, FAct.act]
      rw [show s5.rest.sys = s5 from rfl, he]
      simp only [Option.map_some, bind, Except.bind, pure, Except.pure, hu, Sys.set_self]
      show some (Except.ok ((⟨FSys.withMem ⟨s5.set 1 st3 (.delB cur1 cm), fun _ => .none⟩ _, fun _ => []⟩ : TSys), Ev.none)) = _
      simp only [Sys.set_st]
      rw [hm]
      rfl)
  -- publish
  have hcm : cm.ok.free = some (n2, 256) ∧ cm.exp = none ∧ isLeaf cm.new = false := by
    have h := hI3.proc 1
    rw [p3] at h
    obtain ⟨_, _, _, _, _, _, h, _⟩ := h
    unfold DBlt at h
    rw [hkind1] at h
    obtain ⟨m, hm, h⟩ := h
    rw [h, hchild, hcount, hps]
    refine ⟨rfl, rfl, isLeaf_buildNode ?_ (Nat.le_refl _)⟩
    have h1 := hm.pos.blk
    have h2 := hI3.mem.core.bn
    simp only [blockSlots, maxBlockCount] at h1 h2
    omega
  obtain ⟨b, tl, st4, hc, hb0, hb1, t4, seen4, _, hI4, _, _, hsw, _⟩ := commitD_full hI3 p3 (by
    simp only [Calm, p3, hkind1]
    intro h; cases h)
  have hc' := hc
  rw [St.commit, hcm.2.1] at hc
  simp only [Prod.mk.injEq] at hc
  obtain ⟨rfl, rfl, hst4⟩ := hc
  simp only [if_true] at hI4
  generalize hs4 : (s2.set 1 st3 (.delB cur1 cm)).set 1 st4 (.del (.tail true cm.ok)) = s4 at hI4
  have p4 : s4.proc 1 = .del (.tail true cm.ok) := by rw [← hs4, Sys.set_self]
  have hs4st : s4.st = st4 := by rw [← hs4]; rfl
  have act4 : (s4.proc 1).active = true := by rw [p4]; rfl
  have hcov4 : t4.cover p = 0 := by
    have h1 := hI4.mem.core.sep p
    have h2 : (s4.proc 1).pend p ≤ s4.pend p := le_sum_of_mem (List.mem_map.2 ⟨1, List.mem_range.2 (hI4.lt_of_active act4), rfl⟩)
    have h3 : (s4.proc 1).pend p = 1 := by
      rw [p4]
      simp only [Proc.pend, Proc.tail?, Tail.seg, hcm.1, seg]
      rw [if_pos (by omega)]
    omega
  have hmem3 : st3.mem p = cur0.op.raw := by
    rw [← hmem2]
    refine heff.mem p ?_
    have h1 := hI2.mem.core.sep p
    have h2 := freeP_le (availNow s2.st) s2.st p
    omega
  have hmem4 : st4.mem p = cur0.op.raw := by
    rw [hsw.mem p hcov hcov4]; exact hmem3
  have hptr4 : cm.ptr ≠ .slot p := by
    intro h
    rw [← hst4, h] at hmem4
    simp only [St.store, upd_same] at hmem4
    rw [← hmem4, hcm.2.2] at hlf
    cases hlf
  have hst6 : St.store { st3 with mem := upd st3.mem p 0 } cm.ptr cm.new = { st4 with mem := upd st4.mem p 0 } := by
    rw [← hst4]
    cases hq : cm.ptr with
    | root => rfl
    | slot x =>
      have hx : x ≠ p := fun e => hptr4 (by rw [hq, e])
      simp only [St.store]
      congr 1
      funext y
      by_cases h1 : y = p
      · subst h1
        rw [upd_same, upd_of_ne _ _ (Ne.symm hx), upd_same]
      · rw [upd_of_ne _ 0 h1]
        by_cases h2 : y = x
        · subst h2; rw [upd_same, upd_same]
        · rw [upd_of_ne _ _ h2, upd_of_ne _ _ h2, upd_of_ne _ _ h1]; rfl
  have T7 : TRun wideEnv TFine ⟨(s5.set 1 { st4 with mem := upd st4.mem p 0 } (.del (.tail true cm.ok))).rest, fun _ => []⟩
      ((σ2.next (.del cur0.key)).next (.del cur1.key)) :=
    .step (act := .act (.commit 1)) T6 trivial (by
      simp only [TFine, FCalm, FAct.act, Sys.rest, Calm, Sys.set_self, hkind1]
      intro h; cases h) (by
      have he : exec wideEnv.fetch (s5.set 1 { st3 with mem := upd st3.mem p 0 } (.delB cur1 cm)) (.commit 1) =
          some (.ok (s5.set 1 { st4 with mem := upd st4.mem p 0 } (.del (.tail true cm.ok)), .del cur1.key)) := by
        have : St.commit { st3 with mem := upd st3.mem p 0 } cm = (true, cm.ok, { st4 with mem := upd st4.mem p 0 }) := by
          rw [St.commit, hcm.2.1, hst6]
        simp only [exec, Sys.set_self, Sys.set_st, this, Sys.set_set, if_true]
      simp only [texec, fexec, FAct.act, TSys.gotAfter]
      rw [show (Sys.rest (s5.set 1 { st3 with mem := upd st3.mem p 0 } (.delB cur1 cm))).sys =
        s5.set 1 { st3 with mem := upd st3.mem p 0 } (.delB cur1 cm) from rfl, he]
      rfl)
  have hcore7 := hI4.mem.core.scratch hcov4
  rw [hs4st] at hcore7
  have hhas : t4.Has [98, 0] 0 := by
    rw [hI4.mem.content]
    show upd σ2.map cur1.key none [98, 0] = some 0
    rw [map2, c1, upd_of_ne _ _ (by decide), wideMap_b]; rfl
  refine ⟨_, _, T7, ?_, ?_⟩
  · show upd (upd σ2.map cur0.key none) cur1.key none [98, 0] = none
    rw [c0, c1, upd_of_ne _ _ (by decide), upd_same]
  · obtain ⟨r, h1, h2⟩ := search_tree (key := [98, 0]) hcore7 (by rintro rfl; cases hhas) (by decide)
    show content wideEnv.fetch { st4 with mem := upd st4.mem p 0 } [98, 0] = some 0
    unfold content
    rw [h1]
    cases r with
    | none => exact absurd hhas (h2.miss rfl _)
    | some v =>
      obtain ⟨lk, lv, g1, rfl, g3⟩ := h2.hit v rfl
      have hk := g3 0 hhas
      subst hk
      have hv : some lv = some 0 := by
        rw [← (hI4.mem.content _ _).1 g1, ← (hI4.mem.content _ _).1 hhas]
      have hP := (hI4.has g1).2
      simp only [hP.2, hP.1, if_true]
      exact hv

/-- C60 does not hold in full: a `deleteLeaf256`, which takes no lock, may change a word after it has been loaded for a copy; the copy then brings the
deleted key back. -/
theorem C60_does_not_hold : ¬ ∀ env, C60_statement env := by
  intro h
  obtain ⟨τ, σ, h1, h2, h3⟩ := torn_copy
  have := h wideEnv τ σ h1 [98, 0] (by decide)
  rw [h2, h3] at this
  cases this

end Radix
