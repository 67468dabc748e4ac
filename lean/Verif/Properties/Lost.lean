import Verif.Properties.Emptied
import Verif.Sys.Narrow
import Verif.Properties.Concurrent
import Verif.Properties.Abort
import Verif.Sys.Two
/-!
# Calls that do not overlap (C48)

Operations are prepared at the same time, but no call runs during another.  A delete in a 256-slot node is prepared without a lock; if the node is
replaced before it is finalized, the delete takes effect in the old node.
-/
set_option autoImplicit false
namespace Radix
open T

/-! ## Executions of whole calls -/

/-- No finalized deletes, no races, whole calls. -/
def Orderly (s : Sys) (act : Act) : Prop := InsertOnly s act ∧ WholeCalls s act

theorem Proc.busy_of_writer {p : Proc} (h : p.writer = false) : p.busy = false := by
  cases hb : p.busy with
  | false => rfl
  | true => rw [p.writer_of_busy hb] at h; cases h

theorem SInv.whole {env : Env} {s : Sys} {σ : Spec} {t : T} {seen : Nat → T → Prop} (hI : Inv env s σ t seen) (hS : SInv s) {act : Act}
    (h : OneWriter s act) : WholeCalls s act := by
  refine ⟨?_, ?_⟩
  · rintro a b _ hab (hw | ⟨c, rfl, hc⟩)
    · exact Proc.busy_of_writer (hS.others hw (Ne.symm hab))
    · cases c with
      | lookup k => cases hc
      | walk => cases hc
      | _ => exact Proc.busy_of_writer (h b)
  · cases act with
    | begin a c => cases c <;> first | exact h | trivial
    | quit a => exact h
    | abort a => exact SInv.calm (act := .abort a) hI hS h
    | _ => trivial

theorem Run.orderly {env : Env} {s : Sys} {σ : Spec} (h : Run env SerialInserts s σ) : Run env Orderly s σ := by
  induction h with
  | init n => exact .init n
  | reload _ hs ih => exact .reload ih hs
  | step h0 h1 h2 h3 ih =>
    obtain ⟨h4, h5⟩ := (h0.mono fun _ _ h => h.1).serial
    obtain ⟨t, seen, hI⟩ := h4.inv
    exact .step ih h1 ⟨⟨SInv.calm hI h5 h2.1.oneWriter, h2.2⟩, SInv.whole hI h5 h2.1.oneWriter⟩ h3

theorem Run.orderly_calm {env : Env} {s : Sys} {σ : Spec} (h : Run env Orderly s σ) : Run env Calm s σ := h.mono fun _ _ h => h.1.1

/-- All operations but that of `a` are between two calls and have no locks. -/
def Rests (s : Sys) (a : Nat) : Prop := ∀ b, b ≠ a → (s.proc b).busy = false ∧ (s.proc b).unl = .none ∧ (s.proc b).tail? = none

theorem Rests.whole {s : Sys} {a : Nat} (h : Rests s a) {act : Act} (hw : act.who = some a)
    (h2 : match act with
      | .begin _ (.lookup _) => False
      | .begin _ .walk => False
      | .quit _ => False
      | .abort _ => False
      | _ => True) : WholeCalls s act := by
  refine ⟨fun a' b h1 h3 _ => ?_, ?_⟩
  · rw [hw] at h1
    cases h1
    exact (h b (Ne.symm h3)).1
  · cases act with
    | begin a c => cases c <;> first | exact h2.elim | trivial
    | quit a => exact h2.elim
    | abort a => exact h2.elim
    | _ => trivial

theorem Rests.set {s : Sys} {a : Nat} (h : Rests s a) (st : St) (p : Proc) : Rests (s.set a st p) a := by
  intro b hb
  rw [Sys.set_other _ _ _ _ hb]
  exact h b hb

/-- Memory and root are unchanged. -/
structure SameWords (st st' : St) : Prop where
  mem : st'.mem = st.mem
  root : st'.root = st.root
  nblocks : st'.nblocks = st.nblocks
  nalloc : st'.nalloc = st.nalloc
  baNext : st'.baNext = st.baNext

theorem SameWords.refl (st : St) : SameWords st st := ⟨rfl, rfl, rfl, rfl, rfl⟩

theorem SameWords.trans {a b c : St} (h : SameWords a b) (h' : SameWords b c) : SameWords a c :=
  ⟨h'.mem.trans h.mem, h'.root.trans h.root, h'.nblocks.trans h.nblocks, h'.nalloc.trans h.nalloc, h'.baNext.trans h.baNext⟩

/-- The steps of `PrepareDelete` when all other operations rest. -/
theorem prepareD_rests {env : Env} {a : Nat} {key : Key} : ∀ (m : Nat) {s : Sys} {σ : Spec} {ph : DPh}, Run env Orderly s σ → Rests s a →
    s.proc a = .del ph → NowD s.st ph → LockKind (.del ph) → ph.key? = some key → leftD ph ≤ m →
    ∃ s', Run env Orderly s' σ ∧
      ((∃ cur, s'.proc a = .del (.held cur) ∧ cur.key = key ∧ NowD s'.st (.held cur)) ∨ s'.proc a = .del (.miss key)) ∧
      (∀ b, b ≠ a → s'.proc b = s.proc b) ∧ KeepAl s.st s'.st ∧ SameWords s.st s'.st := by
  intro m
  have done : ∀ {s : Sys} {σ : Spec} {ph : DPh}, Run env Orderly s σ → s.proc a = .del ph → NowD s.st ph → ph.key? = some key →
      ((∃ cur, ph = .held cur) ∨ ∃ k, ph = .miss k) →
      ∃ s', Run env Orderly s' σ ∧
      ((∃ cur, s'.proc a = .del (.held cur) ∧ cur.key = key ∧ NowD s'.st (.held cur)) ∨ s'.proc a = .del (.miss key)) ∧
      (∀ b, b ≠ a → s'.proc b = s.proc b) ∧ KeepAl s.st s'.st ∧ SameWords s.st s'.st := by
    rintro s σ ph h hp hN hk (⟨cur, rfl⟩ | ⟨k, rfl⟩)
    · exact ⟨s, h, .inl ⟨cur, hp, by simpa [DPh.key?] using hk, hN⟩, fun _ _ => rfl, .refl _, .refl _⟩
    · refine ⟨s, h, .inr ?_, fun _ _ => rfl, .refl _, .refl _⟩
      simp only [DPh.key?, Option.some.injEq] at hk
      rw [hp, hk]
  induction m with
  | zero =>
    intro s σ ph h hR hp hN hK hk hm
    cases ph with
    | held cur => exact done h hp hN hk (.inl ⟨_, rfl⟩)
    | miss k => exact done h hp hN hk (.inr ⟨_, rfl⟩)
    | tail r tl => cases hk
    | _ => simp [leftD] at hm
  | succ m ih =>
    intro s σ ph h hR hp hN hK hk hm
    by_cases hh : (∃ cur, ph = .held cur) ∨ ∃ k, ph = .miss k
    · exact done h hp hN hk hh
    · obtain ⟨t, seen, hI⟩ := h.orderly_calm.inv
      have h1 : ∀ cur, ph ≠ .held cur := fun cur e => hh (.inl ⟨cur, e⟩)
      have h2 : ∀ r tl, ph ≠ .tail r tl := by rintro r tl rfl; cases hk
      have h3 : ∀ k, ph ≠ .miss k := fun k e => hh (.inr ⟨k, e⟩)
      have htl : (s.proc a).tail? = none := by
        rw [hp]; cases ph <;> first | rfl | exact absurd rfl (h2 _ _)
      have hcalm : Calm s (.run a) := by
        simp only [Calm]
        split
        · rename_i hp'; rw [hp] at hp'; cases hp'
        · intro _ _
          exact .inl (lone_noWindow (fun b hb => (hR b hb).2) htl _)
        · rename_i hp'
          intro _
          rw [hp] at hp'
          injection hp' with hp'
          subst hp'
          exact ⟨hN.1, hN.2.1⟩
        · trivial
      obtain ⟨ph', st', g1, g2, g3, _⟩ := stepD_now hI ⟨fun b hb => (hR b hb).2, by rw [hp]; exact hN⟩ hp hcalm h1 h2 h3
      have he : exec env.fetch s (.run a) = some (.ok (s.set a st' (.del ph'), .none)) := by
        cases ph <;> first
          | (simp only [exec, hp, g1, bind, Except.bind, pure, Except.pure]; done)
          | exact absurd rfl (h1 _)
          | exact absurd rfl (h2 _ _)
          | exact absurd rfl (h3 _)
      obtain ⟨hK', hT⟩ := stepD_locks hK h1 h2 g1
      have hmr : SameWords s.st st' := by
        rcases hT with ⟨e, _⟩ | ⟨e, _⟩ | ⟨_, e, _⟩ <;> rw [e] <;> exact ⟨rfl, rfl, rfl, rfl, rfl⟩
      have hr : Run env Orderly (s.set a st' (.del ph')) σ :=
        .step (act := .run a) h trivial ⟨⟨hcalm, not_delPub (by simp)⟩, hR.whole rfl trivial⟩ he
      obtain ⟨s', i1, i2, i3, i4, i5⟩ := ih hr (hR.set _ _) (ph := ph') (by simp [Sys.set]) g2 hK' ((stepD_key g1).trans hk) (by omega)
      refine ⟨s', i1, i2, fun b hb => ?_, (run_quiet he).al.trans i4, hmr.trans i5⟩
      rw [i3 b hb, Sys.set_other _ _ _ _ hb]

/-- `PrepareDelete` of a stored key when all other operations rest. -/
theorem delete_rests {env : Env} {s : Sys} {σ : Spec} {a : Nat} {key : Key} (h : Run env Orderly s σ) (hR : Rests s a) (hidle : s.proc a = .idle)
    (ha : a < s.st.nalloc) (hk : σ.map key ≠ none) :
    ∃ s' cur, Run env Orderly s' (σ.next (.begun a (.delete key))) ∧ s'.proc a = .del (.held cur) ∧ cur.key = key ∧
      env.fetch cur.op.value = key ∧ NowD s'.st (.held cur) ∧ (∀ b, b ≠ a → s'.proc b = s.proc b) ∧ KeepAl s.st s'.st ∧
      SameWords s.st s'.st := by
  have hne : key ≠ [] := by
    obtain ⟨t, seen, hI⟩ := h.orderly_calm.inv
    obtain ⟨v, hv⟩ := hI.mem.content.some_iff.1 hk
    exact env.ne (hI.has hv).1
  have e1 : exec env.fetch s (.begin a (.delete key)) = some (.ok (s.set a s.st (.arm s.st.epoch (.delete key)), .none)) := by
    simp [exec, hidle, ha]
  have h1 : Run env Orderly (s.set a s.st (.arm s.st.epoch (.delete key))) σ :=
    .step (act := .begin a (.delete key)) h hne ⟨⟨trivial, not_delPub (by simp)⟩, hR.whole rfl trivial⟩ e1
  have e2 : exec env.fetch (s.set a s.st (.arm s.st.epoch (.delete key))) (.arm a) =
      some (.ok ((s.set a s.st (.arm s.st.epoch (.delete key))).set a { s.st with resv := upd s.st.resv a s.st.epoch } (.del (.start key)),
        .begun a (.delete key))) := by
    simp [exec, Sys.set, Call.start]
  have h2 := Run.step (act := .arm a) h1 trivial ⟨⟨trivial, not_delPub (by simp)⟩, (hR.set _ _).whole rfl trivial⟩ e2
  obtain ⟨s', r, hp, ho, k1, m1⟩ := prepareD_rests (a := a) (key := key) _ h2 ((hR.set _ _).set _ _) (ph := .start key) (by simp [Sys.set])
    trivial trivial rfl (Nat.le_refl _)
  have ho' : ∀ b, b ≠ a → s'.proc b = s.proc b := by
    intro b hb
    rw [ho b hb, Sys.set_other _ _ _ _ hb, Sys.set_other _ _ _ _ hb]
  obtain ⟨t, seen, hI⟩ := r.orderly_calm.inv
  have hwin : ∀ M ∈ (σ.next (.begun a (.delete key))).window a, M key ≠ none := by
    intro M hM
    simp only [Spec.next, upd_same, List.mem_singleton] at hM
    rw [hM]; exact hk
  rcases hp with ⟨cur, p1, p2, p3⟩ | hp
  · refine ⟨s', cur, r, p1, p2, ?_, p3, ho', k1, ⟨m1.mem, m1.root, m1.nblocks, m1.nalloc, m1.baNext⟩⟩
    have hP := hI.proc a
    rw [p1] at hP
    obtain ⟨M, hM, k', _, hf, hk'⟩ := hI.candK (a := a) (by rw [p1]; rfl) hP.1
    rw [hf, hk' (by rw [p2]; exact hwin), p2]
  · exfalso
    have hP := hI.proc a
    rw [hp] at hP
    obtain ⟨M, hM, hM2⟩ := hI.absent (a := a) (by rw [hp]; rfl) hP
    exact hwin M hM hM2

/-- A delete prepared in a 256-slot node, while what it has read is current. -/
theorem big_slot {env : Env} {s : Sys} {σ : Spec} {t : T} {seen : Nat → T → Prop} (hI : Inv env s σ t seen) {a : Nat} {cur : DelCur}
    (hp : s.proc a = .del (.held cur)) (hN : NowD s.st (.held cur)) (hk : cur.op.kind = .deleteLeaf256) :
    ∃ q n pfx ch k, At t q (.node n pfx true ch) ∧ cur.op.leafPtr = .slot (childSlot n pfx true ch k) ∧ cur.op.raw = wordOf k (ch k) ∧
      cur.op.value = leafValue cur.op.raw ∧ isLeaf cur.op.raw = true := by
  have hP := hI.proc a
  rw [hp] at hP
  obtain ⟨hcur, p, e1, e2⟩ := hN hk
  obtain ⟨_, ⟨e, _⟩ | ⟨e, _⟩ | ⟨e, _⟩ | ⟨_, hv, hl, t0, q, n, pfx, ch, k, h1, h2, h3⟩⟩ := hP
  · rw [hk] at e; cases e
  · rw [hk] at e; rcases e with e | e <;> cases e
  · rw [hk] at e; cases e
  · rcases hI.mem.trail a t0 q n pfx true ch (by rw [hp]; rfl) h1 h2 with ⟨ch', g1, g2⟩ | ⟨t1, ch', g1, g2, g3, g4, g5⟩
    · have h3' : cur.op.leafPtr = .slot (childSlot n pfx true ch' k) := h3
      refine ⟨q, n, pfx, ch', k, g1, h3', ?_, hv, hl⟩
      have h4 := (hI.mem.core.view (b := 0) g1).mem.kid k (.inl rfl)
      have h5 := hcur.1
      rw [h3'] at h5
      rw [← h5]
      exact h4
    · exfalso
      obtain ⟨q', n', pfx', big', ch2, c, i1, i2, i3⟩ := (liveSlot_iff hI.mem.core).1 e2
      have r1 := childSlot_range (a := n) (pfx := pfx) (big := true) (ch := ch) (c := k) (.inl rfl)
      have r2 := childSlot_range (a := n') (pfx := pfx') i2
      have e3 : childSlot n pfx true ch k = p := by
        rw [h3] at e1
        exact Ptr.slot.inj e1
      rw [← i3] at r2
      rw [e3] at r1
      have z1 := g5 p (by omega) r1.2
      have z2 := i1.cover_node (x := p) (by omega) r2.2
      omega

theorem big_now {st st' : St} {cur : DelCur} (h : NowD st (.held cur)) (hs : SameWords st st') : NowD st' (.held cur) := by
  intro hk
  obtain ⟨⟨h1, h2⟩, p, h3, h4⟩ := h hk
  have hl : LiveSlot st' p := h4.congr hs.mem hs.root hs.nblocks
  refine ⟨⟨?_, ?_⟩, p, h3, hl⟩
  · rw [← h1, h3]
    show st'.mem p = st.mem p
    rw [hs.mem]
  · rw [hs.baNext]; exact h2

/-! ## The tree with the keys "a" and "b?" -/

/-- Deletes prepared when the tree has these keys. -/
theorem wide_kind {s : Sys} {σ : Spec} {t : T} {seen : Nat → T → Prop} (hI : Inv wideEnv s σ t seen) {n n2 : Nat} {ch ch2 : UInt8 → T}
    {k0 : Key} {v0 : Word} (ht : t = .node n [] false ch) (hk : kidsOf (present ch) = [97, 98]) (h97 : ch 97 = .leaf k0 v0)
    (h98 : ch 98 = .node n2 [] true ch2) (hlf : ∀ c, (ch2 c).isLf = true) {a : Nat} {cur : DelCur}
    (hp : s.proc a = .del (.held cur)) (hN : NowD s.st (.held cur)) :
    (cur.op.kind = .deleteLeaf256 ∧ (wideEnv.fetch cur.op.value).head? = some 98 ∧ (∃ k, cur.op.leafPtr = .slot (childSlot n2 [] true ch2 k)) ∧
      isLeaf cur.op.raw = true ∧ s.st.load cur.op.leafPtr = cur.op.raw) ∨
    (cur.op.kind = .replaceNodeWithNode ∧ (wideEnv.fetch cur.op.value).head? ≠ some 98 ∧ cur.op.child = n2 ∧ cur.op.prefixSlots = 0 ∧
      cur.op.count = 256) := by
  subst ht
  have hcnt : cntOf (present ch) = 2 := by unfold cntOf; rw [hk]; rfl
  have hnode : ∀ {q n' pfx' big' ch'}, At (.node n [] false ch) q (.node n' pfx' big' ch') →
      (q = [] ∧ n' = n ∧ pfx' = [] ∧ big' = false ∧ ch' = ch) ∨ (q = [98] ∧ n' = n2 ∧ pfx' = [] ∧ big' = true ∧ ch' = ch2) := by
    intro q n' pfx' big' ch' h
    cases h with
    | here => exact .inl ⟨rfl, rfl, rfl, rfl, rfl⟩
    | @down _ _ _ _ c r _ h =>
      right
      by_cases hc : c = 98
      · subst hc
        rw [h98] at h
        cases h with
        | here => exact ⟨rfl, rfl, rfl, rfl, rfl⟩
        | @down _ _ _ _ c r _ h =>
          have := hlf c
          cases hc : ch2 c <;> rw [hc] at h this <;> first | (cases this; done) | cases h
      · exfalso
        by_cases hc2 : c = 97
        · subst hc2; rw [h97] at h; cases h
        · have : present ch c = false := by
            cases hpc : present ch c with
            | false => rfl
            | true =>
              have := mem_kidsOf.2 hpc
              rw [hk] at this
              simp only [List.mem_cons, List.not_mem_nil, or_false] at this
              rcases this with h | h
              · exact absurd h hc2
              · exact absurd h hc
          have he : ch c = .empty := T.isEmpty_eq_true.1 (by simpa [present] using this)
          rw [he] at h
          cases h
  have hkey : ∀ {q lk lv}, At (.node n [] false ch) q (.leaf lk lv) → wideEnv.fetch (trunc55 lv) = lk ∧ q <+: lk := by
    intro q lk lv h
    have h1 : (T.node n [] false ch).Has lk lv := h.has ⟨rfl, rfl⟩
    have h2 := hI.has h1
    refine ⟨by rw [h2.2.2]; exact h2.2.1, ?_⟩
    have := h.wf hI.mem.core.wf
    exact this.1
  have hPh := hI.proc a
  rw [hp] at hPh
  by_cases hk256 : cur.op.kind = .deleteLeaf256
  · left
    obtain ⟨q, n', pfx', ch', k, g1, g2, g3, g4, g5⟩ := big_slot hI hp hN hk256
    rcases hnode g1 with ⟨_, _, _, h, _⟩ | ⟨rfl, rfl, rfl, _, rfl⟩
    · cases h
    refine ⟨hk256, ?_, ⟨k, g2⟩, g5, (hN hk256).1.1⟩
    cases hc : ch' k with
    | empty => have := hlf k; rw [hc] at this; cases this
    | node => have := hlf k; rw [hc] at this; cases this
    | leaf lk lv =>
      have hat : At (.node n [] false ch) ([] ++ 98 :: ([] ++ k :: [])) (.leaf lk lv) := .down (by rw [h98]; exact .down (by rw [hc]; exact .here _))
      obtain ⟨h1, h2⟩ := hkey hat
      rw [g4, g3, hc]
      simp only [wordOf, leafValue_buildLeaf]
      rw [h1]
      obtain ⟨r, rfl⟩ := h2
      rfl
  · right
    obtain ⟨_, ⟨e, h⟩ | ⟨_, q, pfx, ch', h, _⟩ | ⟨e, q, pfx, k, k2, lk, lv, pfx2, big2, kids, h, _, h3, _⟩ | ⟨e, _⟩⟩ := hPh
    · unfold DFact at h
      rw [e] at h
      obtain ⟨_, _, h, _⟩ := h
      cases h
    · exfalso
      rcases hnode h.at' with ⟨_, _, _, _, rfl⟩ | ⟨_, _, _, h, _⟩
      · rcases h.kind with ⟨_, _, _, _, _, h3, _⟩ | ⟨_, k, k2, lk, lv, lk2, lv2, h3, hne, _⟩
        · omega
        · rw [h3] at h98
          by_cases h1 : (98 : UInt8) = k
          · rw [h1, ch2_fst hne] at h98; cases h98
          · by_cases h2 : (98 : UInt8) = k2
            · rw [h2, ch2_snd] at h98; cases h98
            · rw [ch2_other h1 h2] at h98; cases h98
      · cases h
    · rcases hnode h.at' with ⟨rfl, _, rfl, _, hch⟩ | ⟨_, _, _, h, _⟩
      · have hne := h.ne
        have e98 : 98 = k2 := by
          rw [← hch] at h98
          by_cases h1 : (98 : UInt8) = k
          · rw [h1, ch2_fst hne] at h98; cases h98
          · by_cases h2 : (98 : UInt8) = k2
            · exact h2
            · rw [ch2_other h1 h2] at h98; cases h98
        subst e98
        have hx := h98
        rw [← hch, ch2_snd] at hx
        simp only [T.node.injEq] at hx
        obtain ⟨x1, x2, x3, x4⟩ := hx
        subst x2 x3
        refine ⟨e, ?_, x1, h3, h.count⟩
        have hat : At (.node n [] false ch) ([] ++ k :: []) (.leaf lk lv) := .down (by rw [← hch, ch2_fst hne]; exact .here _)
        obtain ⟨h1, h2⟩ := hkey hat
        rw [h.value, h1]
        obtain ⟨r, rfl⟩ := h2
        simp only [List.nil_append, List.cons_append, List.head?_cons, ne_eq, Option.some.injEq]
        exact hne
      · cases h
    · exact absurd e hk256

theorem wholeCalls_of_rests {env : Env} {s : Sys} {σ : Spec} (h : Run env Orderly s σ) : Run env WholeCalls s σ := h.mono fun _ _ h => h.2

/-- With memory that no node uses, the tree stays the same. -/
theorem CoreN.scratch {P : Key → Word → Prop} {st : St} {t : T} {N : Nat → Nat} (h : CoreN P st t N) {p : Nat} (hp : t.cover p = 0) :
    CoreN P { st with mem := upd st.mem p 0 } t N := by
  refine ⟨h.root, h.repr.congr fun x hx => ?_, h.wf, h.inb, h.nb, h.sep, h.ok, ?_, h.n0⟩
  · refine upd_of_ne _ _ ?_
    rintro rfl; omega
  · show upd st.mem p 0 0 = 0
    unfold upd
    split
    · rfl
    · exact h.zero

/-- Two deletes are prepared, of "b\x00" and of "a"; the second is finalized first.  Both calls of `Finalize` return true.  The key of the first is
still there. -/
theorem lost_delete : ∃ s σ, Run wideEnv WholeCalls s σ ∧ (∀ b, s.proc b = .idle) ∧ σ.map [98, 0] = none ∧
    content wideEnv.fetch s.st [98, 0] = some 0 := by
  obtain ⟨s0, σ0, _, r0, idle0, map0, ba0, na0⟩ := wide_stateN (n := 2) (by decide)
  have r0 := r0.orderly
  obtain ⟨s1, cur0, r1, p1, c0, f0, now0, o1, _, t1⟩ := delete_rests (a := 0) (key := [98, 0]) r0 (fun b _ => by rw [idle0]; exact ⟨rfl, rfl, rfl⟩)
    (idle0 0) (by omega) (by rw [map0, wideMap_b]; simp)
  have map1 : (σ0.next (.begun 0 (.delete [98, 0]))).map = wideMap := map0
  generalize σ0.next (.begun 0 (.delete [98, 0])) = σ1 at r1 map1
  -- the delete of "b\x00" holds no lock
  have hkind0 : cur0.op.kind = .deleteLeaf256 := by
    obtain ⟨t, seen, hI, hd⟩ := (r1.mono fun _ _ h => h.1).insertOnly
    obtain ⟨n, ch, n2, ch2, k, v, e1, e2, e3, e4, e5⟩ := wide_shape hd hI.mem.core.wf (fun k v => by rw [hI.mem.content, map1])
    rcases wide_kind hI e1 e2 e3 e4 e5 p1 now0 with h | ⟨_, h, _⟩
    · exact h.1
    · rw [f0] at h; exact absurd rfl h
  obtain ⟨s2, cur1, r2, p2, c1, f1, now1, o2, _, t2⟩ := delete_rests (a := 1) (key := [97]) r1 (by
      intro b hb
      by_cases hb0 : b = 0
      · subst hb0
        rw [p1]
        exact ⟨rfl, by simp [Proc.unl, DelOp.unl, hkind0], rfl⟩
      · rw [o1 b hb0, idle0]; exact ⟨rfl, rfl, rfl⟩)
    (by rw [o1 1 (by omega)]; exact idle0 1) (by rw [t1.nalloc]; omega) (by rw [map1, wideMap_a]; simp)
  have map2 : (σ1.next (.begun 1 (.delete [97]))).map = wideMap := map1
  generalize σ1.next (.begun 1 (.delete [97])) = σ2 at r2 map2
  have q2 : s2.proc 0 = .del (.held cur0) := by rw [o2 0 (by omega)]; exact p1
  have idle2 : ∀ b, b ≠ 0 → b ≠ 1 → s2.proc b = .idle := by
    intro b h0 h1
    rw [o2 b h1, o1 b h0, idle0]
  obtain ⟨t, seen, hI2, hd⟩ := (r2.mono fun _ _ h => h.1).insertOnly
  obtain ⟨n, ch, n2, ch2, k, v, e1, e2, e3, e4, e5⟩ := wide_shape hd hI2.mem.core.wf (fun k v => by rw [hI2.mem.content, map2])
  obtain ⟨_, _, ⟨kb, hptr⟩, hlf, hload⟩ | ⟨h, _⟩ := wide_kind hI2 e1 e2 e3 e4 e5 q2 (big_now now0 t2)
  case inr => rw [hkind0] at h; cases h
  obtain ⟨_, h, _⟩ | ⟨hkind1, _, hchild, hps, hcount⟩ := wide_kind hI2 e1 e2 e3 e4 e5 p2 now1
  · rw [f1] at h; cases h
  have hrange := childSlot_range (a := n2) (pfx := []) (big := true) (ch := ch2) (c := kb) (.inl rfl)
  have hsize : nodeSize [] true ch2 = 256 := rfl
  generalize hp : childSlot n2 [] true ch2 kb = p at hptr hrange
  rw [hsize] at hrange
  have hcov : 0 < t.cover p := by
    have hat : At t ([] ++ 98 :: []) (.node n2 [] true ch2) := by rw [e1]; exact .down (by rw [e4]; exact .here _)
    exact hat.cover_node (by omega) (by rw [hsize]; exact hrange.2)
  have hmem2 : s2.st.mem p = cur0.op.raw := by rw [← hload, hptr]; rfl
  have R2 : Run wideEnv WholeCalls s2 σ2 := wholeCalls_of_rests r2
  have hrest : ∀ {s : Sys}, (∀ b, b ≠ 1 → s.proc b = s2.proc b) → ∀ b, b ≠ 1 → (s.proc b).busy = false := by
    intro s h b hb
    rw [h b hb]
    by_cases hb0 : b = 0
    · subst hb0; rw [q2]; rfl
    · rw [idle2 b hb0 hb]; rfl
  have hwhole : ∀ {s : Sys} {act : Act}, (∀ b, b ≠ 1 → s.proc b = s2.proc b) → act.who = some 1 →
      (match act with
      | .begin _ (.lookup _) => False
      | .begin _ .walk => False
      | .quit _ => False
      | .abort _ => False
      | _ => True) → WholeCalls s act := by
    intro s act h hw h2
    refine ⟨fun a' b h1 h3 _ => ?_, ?_⟩
    · rw [hw] at h1
      cases h1
      exact hrest h b (Ne.symm h3)
    · cases act with
      | begin a c => cases c <;> first | exact h2.elim | trivial
      | quit a => exact h2.elim
      | abort a => exact h2.elim
      | _ => trivial
  -- the delete of "a": build
  have hall : wideEnv.Allowed s2 (.build 1 0) := by
    simp only [Env.Allowed, p2, f1]; exact c1.symm
  obtain hno | ⟨cm, st3, hb, heff, hI3⟩ := buildD_inv hI2 p2 hall
  · exfalso
    have h1 := (publishD_needs s2.st 1 cur1.op).2 (by
      rw [publishD_eq _ _ _ (by rw [hkind1]; simp), hno]; rfl)
    rw [t2.baNext, t1.baNext] at h1
    unfold maxBlockCount at h1
    omega
  have R3 : Run wideEnv WholeCalls (s2.set 1 st3 (.delB cur1 cm)) σ2 :=
    .step (act := .build 1 0) (ev := .none) R2 hall (hwhole (fun _ _ => rfl) rfl trivial) (by
      simp only [exec, p2, hkind1, hb, bind, Except.bind, pure, Except.pure]; simp)
  have hmem3 : st3.mem p = cur0.op.raw := by
    rw [← hmem2]
    refine heff.mem p ?_
    have h1 := hI2.mem.core.sep p
    have h2 := freeP_le (availNow s2.st) s2.st p
    omega
  -- publish
  have p3 : (s2.set 1 st3 (.delB cur1 cm)).proc 1 = .delB cur1 cm := by rw [Sys.set_self]
  have hfree : cm.ok.free = some (n2, 256) ∧ cm.exp = none := by
    have h := hI3.proc 1
    rw [p3] at h
    obtain ⟨_, _, _, _, _, _, h, _⟩ := h
    unfold DBlt at h
    rw [hkind1] at h
    obtain ⟨_, _, h⟩ := h
    rw [h, hchild, hcount, hps]
    exact ⟨rfl, rfl⟩
  obtain ⟨b, tl, st4, hc, hb0, hb1, t4, seen4, _, hI4, _, _, hsw, _⟩ := commitD_full hI3 p3 (by
    simp only [Calm, p3, hkind1]
    intro h; cases h)
  have htl : b = true ∧ tl = cm.ok := by
    rw [St.commit, hfree.2] at hc
    simp only [Prod.mk.injEq] at hc
    exact ⟨hc.1.symm, hc.2.1.symm⟩
  obtain ⟨rfl, rfl⟩ := htl
  simp only [if_true] at hI4
  generalize hs3 : s2.set 1 st3 (.delB cur1 cm) = s3 at R3 p3 hI3 hc hI4 hsw
  have hst3 : s3.st = st3 := by rw [← hs3]; rfl
  have o3 : ∀ b, b ≠ 1 → s3.proc b = s2.proc b := fun b hb => by rw [← hs3, Sys.set_other _ _ _ _ hb]
  have R4 : Run wideEnv WholeCalls (s3.set 1 st4 (.del (.tail true cm.ok))) (σ2.next (.del cur1.key)) :=
    .step (act := .commit 1) R3 trivial (hwhole o3 rfl trivial) (by
      simp only [exec, p3, hc, if_true])
  have n3 : s3.st.nalloc = 2 := by rw [hst3, heff.nalloc, t2.nalloc, t1.nalloc, na0]
  generalize hs4 : s3.set 1 st4 (.del (.tail true cm.ok)) = s4 at R4 hI4
  have p4 : s4.proc 1 = .del (.tail true cm.ok) := by rw [← hs4, Sys.set_self]
  have hst4 : s4.st = st4 := by rw [← hs4]; rfl
  have o4 : ∀ b, b ≠ 1 → s4.proc b = s2.proc b := fun b hb => by rw [← hs4, Sys.set_other _ _ _ _ hb]; exact o3 b hb
  have act4 : (s4.proc 1).active = true := by rw [p4]; rfl
  have hcov4 : t4.cover p = 0 := by
    have h1 := hI4.mem.core.sep p
    have h2 : (s4.proc 1).pend p ≤ s4.pend p := le_sum_of_mem (List.mem_map.2 ⟨1, List.mem_range.2 (hI4.lt_of_active act4), rfl⟩)
    have h3 : (s4.proc 1).pend p = 1 := by
      rw [p4]
      simp only [Proc.pend, Proc.tail?, Tail.seg, hfree.1, seg]
      rw [if_pos (by omega)]
    omega
  have hmem4 : s4.st.mem p = cur0.op.raw := by
    rw [hst4, hsw.mem p hcov hcov4, hst3, hmem3]
  have map4 : (σ2.next (.del cur1.key)).map = upd wideMap [97] none := by
    show upd σ2.map _ none = _
    rw [map2, c1]
  generalize σ2.next (.del cur1.key) = σ4 at R4 hI4 map4
  -- unlock, recycle
  have hP4 := hI4.proc 1
  rw [p4] at hP4
  have hodd := hI4.locks.odd 1
  rw [p4] at hodd
  obtain ⟨m, h, _⟩ | ⟨_, st5, ht5, eff5⟩ := runTail_spec (P := wideEnv.P) (hI4.lt_of_active act4) hodd hP4.2 hI4.mem.core.ok hP4.1
  · rw [hfree.1] at h
    cases h
  obtain ⟨m, h, _⟩ | ⟨st5', ht5', hI5⟩ := tail_inv hI4 (a := 1) (by rw [p4]; rfl) act4 hP4
  · rw [hfree.1] at h
    cases h
  obtain rfl : st5 = st5' := by rw [ht5] at ht5'; exact Except.ok.inj ht5'
  have R5 : Run wideEnv WholeCalls (s4.set 1 st5 .idle) σ4 :=
    .step (act := .tail 1) (ev := .none) R4 trivial (hwhole o4 rfl trivial) (by
      simp only [exec, p4, ht5, bind, Except.bind, pure, Except.pure])
  generalize hs5 : s4.set 1 st5 .idle = s5 at R5 hI5
  have hst5 : s5.st = st5 := by rw [← hs5]; rfl
  have q5 : s5.proc 0 = .del (.held cur0) := by rw [← hs5, Sys.set_other _ _ _ _ (by omega), o4 0 (by omega), q2]
  have idle5 : ∀ b, b ≠ 0 → s5.proc b = .idle := by
    intro b hb
    by_cases h1 : b = 1
    · subst h1; rw [← hs5, Sys.set_self]
    · rw [← hs5, Sys.set_other _ _ _ _ h1, o4 b h1, idle2 b hb h1]
  have hmem5 : s5.st.mem p = cur0.op.raw := by rw [hst5, eff5.mem, hmem4]
  -- the delete of "b\x00" is finalized
  have hwhole' : ∀ {s : Sys} {act : Act}, (∀ b, b ≠ 0 → s.proc b = .idle) → act.who = some 0 →
      (act = .publish 0 0 ∨ act = .tail 0) → WholeCalls s act := by
    intro s act h hw h2
    refine ⟨fun a' b h1 h3 _ => ?_, ?_⟩
    · rw [hw] at h1
      cases h1
      rw [h b (Ne.symm h3)]; rfl
    · rcases h2 with rfl | rfl <;> trivial
  have R6 : Run wideEnv WholeCalls (s5.set 0 { s5.st with mem := upd s5.st.mem p 0 } (.del (.tail true { items := -1 }))) (σ4.next (.del cur0.key)) :=
    .step (act := .publish 0 0) R5 (by simp only [Env.Allowed, q5, f0]; exact c0.symm) (hwhole' idle5 rfl (.inl rfl)) (by
      simp only [exec, q5, publishD, hkind0, St.cas, hptr, St.load, hmem5, St.store, bind, Except.bind, pure, Except.pure]
      simp)
  have hcore6 := hI5.mem.core.scratch hcov4
  obtain ⟨m, h, _⟩ | ⟨_, st7, ht7, eff7⟩ := runTail_spec (P := wideEnv.P) (a := 0) (s := { s5.st with mem := upd s5.st.mem p 0 })
    (tl := { items := -1 }) (hI5.lt_of_active (a := 0) (by rw [q5]; rfl)) (by intro n hn; cases hn) (by simp) hI5.mem.core.ok (by simp)
  · cases h
  have R7 : Run wideEnv WholeCalls
      ((s5.set 0 { s5.st with mem := upd s5.st.mem p 0 } (.del (.tail true { items := -1 }))).set 0 st7 .idle) (σ4.next (.del cur0.key)) :=
    .step (act := .tail 0) (ev := .none) R6 trivial (hwhole' (fun b hb => by rw [Sys.set_other _ _ _ _ hb]; exact idle5 b hb) rfl (.inr rfl)) (by
      simp only [exec, Sys.set_self, Sys.set_st, ht7, bind, Except.bind, pure, Except.pure])
  have hcore7 : CoreN wideEnv.P st7 t4 s5.pend := eff7.core t4 s5.pend hcore6
  have hhas : t4.Has [98, 0] 0 := by
    rw [hI5.mem.content, map4, upd_of_ne _ _ (by decide), wideMap_b]; rfl
  refine ⟨_, _, R7, ?_, ?_, ?_⟩
  · intro b
    by_cases hb : b = 0
    · subst hb; rw [Sys.set_self]
    · rw [Sys.set_other _ _ _ _ hb, Sys.set_other _ _ _ _ hb, idle5 b hb]
  · show upd σ4.map cur0.key none [98, 0] = none
    rw [c0, upd_same]
  · obtain ⟨r, h1, h2⟩ := search_tree (key := [98, 0]) hcore7 (by rintro rfl; cases hhas) (by decide)
    show content wideEnv.fetch st7 [98, 0] = some 0
    unfold content
    rw [h1]
    cases r with
    | none => exact absurd hhas (h2.miss rfl _)
    | some v =>
      obtain ⟨lk, lv, g1, rfl, g3⟩ := h2.hit v rfl
      have hk := g3 0 hhas
      subst hk
      have := hI5.has g1
      have hv : some lv = some 0 := by
        rw [← (hI5.mem.content _ _).1 g1, ← (hI5.mem.content _ _).1 hhas]
      have hP := (hI5.has g1).2
      simp only [hP.2, hP.1, if_true]
      exact hv

/-! ## C48 -/

/-- The full statement of C48: if no call of an update or delete runs during another one, the tree contains, when all are over, what the
successful calls of `Finalize` say. -/
def C48_statement : Prop :=
  ∀ (env : Env) (s : Sys) (σ : Spec), Run env WholeCalls s σ → (∀ b, s.proc b = .idle) → ∀ k, k ≠ [] → content env.fetch s.st k = σ.map k

/-- C48 does not hold: a delete in a 256-slot node, prepared before the node is replaced and finalized after that, returns true and deletes
nothing. -/
theorem C48_does_not_hold : ¬ C48_statement := by
  intro h
  obtain ⟨s, σ, h1, h2, h3, h4⟩ := lost_delete
  have := h wideEnv s σ h1 h2 [98, 0] (by decide)
  rw [h3, h4] at this
  cases this

/-- C48 holds if fewer than 128 bytes follow any beginning of keys: then there are no 256-slot nodes.  (The executions are also those of `Calm`,
so all that is shown for these holds.) -/
theorem C48_narrow_partial {env : Env} (hn : env.Narrow) {s : Sys} {σ : Spec} (h : Run env WholeCalls s σ) :
    Run env Calm s σ ∧ ∀ k, k ≠ [] → content env.fetch s.st k = σ.map k :=
  ⟨(h.wholeCalls hn).calls.1, fun _ hk => C09_interleaved_calls_partial (h.wholeCalls hn) hk⟩

/-- Whole calls of updates and lookups. -/
def WholeUpdates (s : Sys) (act : Act) : Prop := WholeCalls s act ∧ ∀ a k, act ≠ .begin a (.delete k)

theorem Run.wholeUpdates {env : Env} {s : Sys} {σ : Spec} (h : Run env WholeUpdates s σ) :
    Run env Calls s σ ∧ ∀ a, (s.proc a).deleting = false := by
  induction h with
  | init n => exact ⟨.init n, fun _ => rfl⟩
  | reload _ hs ih => exact ⟨.reload ih.1 hs, fun _ => rfl⟩
  | @step s σ act s' ev _ h1 h2 h3 ih =>
    obtain ⟨ih, hd⟩ := ih
    refine ⟨.step ih h1 (h2.1.calls ⟨?_, ?_⟩) h3, fun b => ?_⟩
    · intro a cur hp
      have := hd a
      rw [hp] at this
      cases this
    · intro a cur cm hp
      have := hd a
      rw [hp] at this
      cases this
    · rcases exec_class h3 b with h | ⟨c, rfl, h⟩
      · cases hb : (s'.proc b).deleting with
        | false => rfl
        | true => rw [← hd b]; exact (h.2 hb).symm
      · rw [h]
        cases c with
        | delete k => exact absurd rfl (h2.2 b k)
        | _ => rfl

/-- C48 holds without deletes. -/
theorem C48_updates_partial {env : Env} {s : Sys} {σ : Spec} (h : Run env WholeUpdates s σ) :
    Run env Calm s σ ∧ ∀ k, k ≠ [] → content env.fetch s.st k = σ.map k :=
  ⟨h.wholeUpdates.1.calls.1, fun _ hk => C09_interleaved_calls_partial h.wholeUpdates.1 hk⟩

/-- Fewer than 128 keys. -/
theorem narrow_ofList {l : List Key} (h : goodKeys l = true) (hl : l.length < 128) : (Env.ofList l h).Narrow := by
  intro q cs hn hc
  have hsub : cs ⊆ l.filterMap (·[q.length]?) := by
    intro c hcs
    obtain ⟨k, hk, r, hr⟩ := hc c hcs
    refine List.mem_filterMap.2 ⟨k, hk, ?_⟩
    rw [← hr]
    simp
  have h1 := hn.length_le_of_subset hsub
  have h2 : (l.filterMap (·[q.length]?)).length ≤ l.length := List.length_filterMap_le _ _
  omega

/-- The hypotheses of `C48_narrow_partial` hold for an execution in which a delete and an update are prepared at the same time. -/
example : (Env.ofList deepKeys deepKeys_good).Narrow ∧ ∃ s σ, Run (Env.ofList deepKeys deepKeys_good) WholeCalls s σ ∧ (∀ b, b < 2 → s.proc b = .idle) ∧
    σ.map [97, 97, 97] = none ∧ σ.map [98, 97, 97] = some 9 := by
  refine ⟨narrow_ofList deepKeys_good (by decide), ?_⟩
  obtain ⟨s, σ, h1, h2⟩ := Run.ofCheck (h := deepKeys_good) (G := Calls) calls_sound (n := 2)
    (acts := deepActs ++ [.begin 0 (.delete [97, 97, 97]), .arm 0] ++ List.replicate 15 (.run 0) ++
      [.begin 1 (.update [98, 97, 97]), .arm 1] ++ List.replicate 14 (.run 1) ++ [.publish 0 6, .tail 0, .publish 1 9, .tail 1])
    (check := fun s σ => decide (σ.map [97, 97, 97] = none) && decide (σ.map [98, 97, 97] = some 9) &&
      (List.range 2).all fun b => (s.proc b).isIdle) (by decide +kernel)
  simp only [Bool.and_eq_true, decide_eq_true_eq] at h2
  exact ⟨s, σ, h1.mono fun _ _ h => h.whole, fun b hb => Proc.idle_of (List.all_eq_true.1 h2.2 b (List.mem_range.2 hb)), h2.1.1, h2.1.2⟩

end Radix
