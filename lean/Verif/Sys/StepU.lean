import Verif.Sys.Step
/-!
# Steps of `prepareUpdate` preserve the invariant
-/
namespace Radix
open T

theorem Sys.set_self (s : Sys) (a : Nat) (st : St) (p : Proc) : (s.set a st p).proc a = p := by simp [Sys.set]

theorem Sys.set_other (s : Sys) (a : Nat) (st : St) (p : Proc) {b : Nat} (h : b ≠ a) : (s.set a st p).proc b = s.proc b := by
  simp [Sys.set, upd_of_ne _ _ h]

theorem Sys.set_st (s : Sys) (a : Nat) (st : St) (p : Proc) : (s.set a st p).st = st := rfl

/-- Neither before nor after publishing a change. -/
def Proc.plain (p : Proc) : Bool := p.tail?.isNone && p.cm?.isNone

theorem Proc.plain_tail {p : Proc} (h : p.plain = true) : p.tail? = none := by
  unfold Proc.plain at h
  simp only [Bool.and_eq_true, Option.isNone_iff_eq_none] at h
  exact h.1

theorem Proc.plain_cm {p : Proc} (h : p.plain = true) : p.cm? = none := by
  unfold Proc.plain at h
  simp only [Bool.and_eq_true, Option.isNone_iff_eq_none] at h
  exact h.2

theorem Proc.pend_none {p : Proc} (h : p.plain = true) : p.pend = fun _ => 0 := by
  funext x; unfold Proc.pend; rw [Proc.plain_tail h]; exact Proc.priv_none (Proc.plain_cm h) x

theorem Proc.items_none {p : Proc} (h : p.tail? = none) : p.items = 0 := by
  unfold Proc.items; rw [h]

section
variable {env : Env} {s : Sys} {σ : Spec} {t : T} {seen : Nat → T → Prop} (hI : Inv env s σ t seen)
include hI

theorem Inv.lt {a : Nat} (h : s.proc a ≠ .idle) : a < s.st.nalloc := by
  by_cases ha : a < s.st.nalloc
  · exact ha
  · exact absurd (hI.mem.off a (by omega)) h

theorem Inv.lt_of_active {a : Nat} (h : (s.proc a).active = true) : a < s.st.nalloc :=
  hI.lt fun e => by rw [e] at h; simp [Proc.active] at h

/-- A step of an operation between `startOp` and `endOp` that does not change the tree. -/
theorem Inv.move {a : Nat} {st' : St} {p' : Proc} (hact : (s.proc a).active = true) (htail : (s.proc a).plain = true)
    (hact' : p'.active = true) (htail' : p'.plain = true) (hsm : SameMem s.st st') (hep : st'.epoch = s.st.epoch)
    (hresv : st'.resv = s.st.resv) (htot : st'.total = s.st.total) (hgens : ∀ n, s.st.gen n ≤ st'.gen n)
    (hL : LInv (s.set a st' p')) (hP : PInv env s t (seen a) p') : Inv env (s.set a st' p') σ t seen := by
  have ha := hI.lt_of_active hact
  have hpend : (s.set a st' p').pend = s.pend := by
    apply pend_congr hsm.nalloc
    intro b
    by_cases hb : b = a
    · subst hb; rw [Sys.set_self, Proc.pend_none htail, Proc.pend_none htail']
    · rw [Sys.set_other _ _ _ _ hb]
  have hitems : (s.set a st' p').items = s.items := by
    apply items_congr hsm.nalloc
    intro b
    by_cases hb : b = a
    · subst hb; rw [Sys.set_self, Proc.items_none (Proc.plain_tail htail), Proc.items_none (Proc.plain_tail htail')]
    · rw [Sys.set_other _ _ _ _ hb]
  have he : Evo s (s.set a st' p') t t [] := by
    refine ⟨hgens, ?_, .refl _ _, by simp, Nat.le_of_eq hsm.baNext.symm, Nat.le_of_eq hsm.nblocks.symm⟩
    rintro n _ ⟨b, tl, h1, h2⟩
    have hb : b ≠ a := by rintro rfl; rw [Proc.plain_tail htail] at h1; cases h1
    exact ⟨b, tl, by rw [Sys.set_other _ _ _ _ hb]; exact h1, h2⟩
  refine ⟨hL, ?_, ?_⟩
  · refine hI.mem.quiet (a := a) ?_ hsm.nalloc (Nat.le_of_eq hsm.baNext.symm) (fun x _ => by rw [Sys.set_st, hsm.mem])
      (fun p _ x => Nat.le_of_eq (hsm.freeP p x)) (Nat.le_of_eq hep.symm) (fun b hb => Sys.set_other _ _ _ _ hb)
      (fun b _ => by rw [Sys.set_st, hresv]) (fun h => by omega) ?_ ?_ ?_ rfl (fun _ _ => rfl) (fun _ _ => rfl)
      (fun x h => by rw [Sys.set_self, Proc.priv_none (Proc.plain_cm htail')] at h; omega) ?_
    · rw [hpend]; exact hsm.core hI.mem.core
    · rw [hitems, Sys.set_st, htot]
    · rw [Sys.set_self, hact']; simp
    · rw [Sys.set_self]; intro e c h; rw [h] at hact'; simp [Proc.active] at hact'
    · intro _; exact .inl ⟨hact, by rw [Sys.set_st, hresv], rfl, rfl⟩
  · intro b
    by_cases hb : b = a
    · subst hb
      rw [Sys.set_self]
      refine he.proc (fun _ h => h) hI.mem.core (hsm.core hI.mem.core).repr (fun x h => ?_) (by simp) (fun _ _ => rfl) hP
      rw [Sys.set_st, hsm.mem]
    · rw [Sys.set_other _ _ _ _ hb]
      refine he.proc (fun _ h => h) hI.mem.core (hsm.core hI.mem.core).repr (fun x h => ?_) (by simp) (fun _ _ => rfl) (hI.proc b)
      rw [Sys.set_st, hsm.mem]

/-- ... that changes nothing but its own local state. -/
theorem Inv.moveLocal {a : Nat} {p' : Proc} (hact : (s.proc a).active = true) (hu : (s.proc a).unl = .none)
    (htail : (s.proc a).plain = true) (hact' : p'.active = true) (hu' : p'.unl = .none) (htail' : p'.plain = true)
    (hP : PInv env s t (seen a) p') : Inv env (s.set a s.st p') σ t seen := by
  refine hI.move hact htail hact' htail' (.refl _) rfl rfl rfl (fun _ => Int.le_refl _) ?_ hP
  refine hI.locks.same rfl rfl ?_
  intro b
  by_cases hb : b = a
  · subst hb; rw [Sys.set_self, hu, hu']
  · rw [Sys.set_other _ _ _ _ hb]

/-- ... that takes node locks. -/
theorem Inv.moveLock {a : Nat} {p' : Proc} {L : List Nat} (hact : (s.proc a).active = true) (hu : (s.proc a).unl = .none)
    (htail : (s.proc a).plain = true) (hact' : p'.active = true) (hu' : p'.unl.list = L) (hr' : p'.unl ≠ .root)
    (htail' : p'.plain = true) (heven : allEven s.st L)
    (hP : PInv env s t (seen a) p') : Inv env (s.set a { s.st with locks := bumpLocks s.st.locks L } p') σ t seen := by
  refine hI.move hact htail hact' htail' (.locks _ _) rfl rfl (total_congr rfl rfl rfl) (gen_bump_le rfl) ?_ hP
  refine hI.locks.acquire (a := a) (L := L) rfl rfl heven ?_ hu ?_ ?_
  · intro b hb; rw [Sys.set_other _ _ _ _ hb]
  · rw [Sys.set_self]; exact hu'
  · rw [Sys.set_self]; exact hr'

/-- ... that takes the root lock. -/
theorem Inv.moveRoot {a : Nat} {p' : Proc} (hact : (s.proc a).active = true) (hu : (s.proc a).unl = .none)
    (htail : (s.proc a).plain = true) (hact' : p'.active = true) (hu' : p'.unl = .root) (hr : s.st.rootLock = 0)
    (htail' : p'.plain = true)
    (hP : PInv env s t (seen a) p') : Inv env (s.set a { s.st with rootLock := 1 } p') σ t seen := by
  refine hI.move hact htail hact' htail' (.rootLock _ _) rfl rfl (total_congr rfl rfl rfl) (fun _ => Int.le_refl _) ?_ hP
  refine hI.locks.acquireRoot (a := a) rfl hr rfl ?_ hu ?_
  · intro b hb; rw [Sys.set_other _ _ _ _ hb]
  · rw [Sys.set_self]; exact hu'

theorem Inv.keyByteRoot {n pfx big ch} (ht : t = .node n pfx big ch) : keyByte s.st.root = 0 := by
  have hc := hI.mem.core
  rw [hc.root, ht, rootWord_node]
  exact keyByte_wordOf hc.bn (ht ▸ hc.inb) rfl

omit hI in
theorem rootWord_cases {P st N} (hc : CoreN P st t N) :
    (t = .empty ∧ st.root = 0) ∨
    (∃ lk lv, t = .leaf lk lv ∧ st.root = buildLeaf (lk.headD 0) lv) ∨
    (∃ n pfx big ch, t = .node n pfx big ch ∧ st.root = wordOf 0 (.node n pfx big ch) ∧ st.root ≠ 0 ∧ isLeaf st.root = false) := by
  cases t with
  | empty => exact .inl ⟨rfl, hc.root⟩
  | leaf lk lv => exact .inr (.inl ⟨lk, lv, rfl, hc.root⟩)
  | node n pfx big ch =>
    refine .inr (.inr ⟨n, pfx, big, ch, rfl, hc.root, ?_, ?_⟩)
    · rw [hc.root, rootWord_node]
      intro e
      have := (wordOf_eq_zero hc.bn hc.inb).1 e
      simp at this
    · rw [hc.root, rootWord_node, isLeaf_wordOf hc.bn hc.inb]; rfl

omit hI in
theorem keyAt_zero {key : Key} (h : key ≠ []) : ∃ k, keyAt key 0 = .ok k ∧ key.head? = some k := by
  cases key with
  | nil => exact absurd rfl h
  | cons k r => exact ⟨k, rfl, rfl⟩

/-- What passing the checks of the parent gives. -/
theorem W2.live_of_parent {S : T → Prop} {p : Pos} {q : Key} (h : W2 s t S p q) (hp : p.parent ≠ 0) (hf : Fresh s p.parent p.pg) :
    LiveRef t p.raw q := by
  rcases h.up with h1 | ⟨_, _, _, _, h1⟩
  · exact absurd h1.1 hp
  · obtain ⟨q0, pfx, big, ch, c, g1, g2, g3, g4, g5⟩ := h1 hf
    cases hc : ch c with
    | empty => simp [hc] at g4
    | leaf => simp [hc] at g4
    | node n' pfx' b' kids =>
      refine ⟨c, n', pfx', b', kids, ?_, by rw [g5, hc]⟩
      rw [g2, ← hc]
      exact g1.child c

/-- What passing the check of the parent's generation gives. -/
theorem W2.live_of_safe {a : Nat} {p : Pos} {q : Key} (hact : (s.proc a).active = true) (h : W2 s t (seen a) p q) (hp : p.parent ≠ 0)
    (hg : s.st.gen p.parent / 2 = p.pg / 2) (hs : s.Safe p.parent p.node p.raw) (hf : Fresh s p.node p.ng) : LiveRef t p.raw q := by
  rcases hs with hs | hs | hs
  · exact h.live_of_parent hI hp ⟨hg, hs⟩
  · exact absurd hs hf.2
  · obtain ⟨t0, ht0, b, n, pfx, big, ch, hat, hr⟩ := h.ref
    have hok := hI.mem.ok a t0 hact ht0
    have hc := hI.mem.core
    have hin := hat.inBlocks hok.inb
    have hne : p.raw ≠ 0 := by
      rw [hr, Ne, wordOf_eq_zero hc.bn hin]; simp
    have hnl : isLeaf p.raw = false := by rw [hr, isLeaf_wordOf hc.bn hin]; rfl
    obtain ⟨q', n', pfx', big', ch', b', hat', hr'⟩ := (hs.refOf hc).node hc hne hnl
    have e1 : nodeAddr p.raw = n := by rw [hr]; exact nodeAddr_wordOf hc.bn hin
    have e2 : nodeAddr p.raw = n' := by rw [hr']; exact nodeAddr_wordOf hc.bn (hat'.inBlocks hc.inb)
    have en : n' = n := e2.symm.trans e1
    rw [en] at hat' hr'
    have eq := hI.mem.uniq a t t0 q' q n pfx' big' ch' pfx big ch hact (hI.mem.now a hact) ht0 hat' hat
    rw [eq] at hat'
    exact ⟨b', n, pfx', big', ch', hat', hr'⟩

/-- What passing the check of the root reference gives. -/
theorem W2.live_of_root {a : Nat} {p : Pos} {q : Key} (hact : (s.proc a).active = true) (h : W2 s t (seen a) p q)
    (hp : p.parent = 0) (hl : s.st.load p.nodePtr = p.raw) : LiveRef t p.raw q := by
  rcases h.up with ⟨_, g1, g2, _⟩ | ⟨h1, _⟩
  · obtain ⟨n, pfx, big, ch, hv, _, _⟩ := hI.mem.look hact h.ref
    rw [g1] at hl
    simp only [St.load] at hl
    obtain ⟨b, hb⟩ := hv.ref
    rcases rootWord_cases hI.mem.core with ⟨_, e⟩ | ⟨lk, lv, _, e⟩ | ⟨n', pfx', big', ch', e1, e2, _⟩
    · have : wordOf b (.node n pfx big ch) = 0 := by rw [← hb, ← hl, e]
      have := (wordOf_eq_zero hv.hnb hv.inb).1 this
      simp at this
    · have h1 : isLeaf p.raw = true := by rw [← hl, e]; simp
      rw [hb, isLeaf_wordOf hv.hnb hv.inb] at h1
      simp at h1
    · exact ⟨0, n', pfx', big', ch', by rw [g2, e1]; exact .here _, by rw [← hl, e2]⟩
  · exact absurd hp h1

/-- Both locks are taken: the facts that depend on the generations hold. -/
theorem W4.locked {S : T → Prop} {p : Pos} {q : Key} (h : W4 s t S p q) (h1 : s.st.gen p.node = p.ng) (h2 : p.ng % 2 = 0)
    (h3 : p.parent ≠ 0 → ¬ sameLock p.parent p.node → s.st.gen p.parent = p.pg) (h4 : p.parent ≠ 0 → p.pg % 2 = 0) :
    Fresh s p.node p.ng ∧ allEven s.st (lockList2 p.node p.parent) ∧ HoldUp t p q := by
  have hg : p.parent ≠ 0 → s.st.gen p.parent = p.pg := by
    intro hp
    by_cases hs : sameLock p.parent p.node
    · have h5 := h.eq hp hs
      have h6 := h4 hp
      rw [gen_congr hs, h1]; omega
    · exact h3 hp hs
  refine ⟨⟨by rw [h1], hI.locks.even (by rw [h1]; exact h2)⟩, ?_, ?_⟩
  · intro n hn
    unfold lockList2 at hn
    split at hn
    · obtain rfl := List.mem_singleton.1 hn
      rw [h1]; exact h2
    · rename_i hp
      rcases List.mem_cons.1 hn with rfl | hn
      · rw [h1]; exact h2
      · obtain rfl := List.mem_singleton.1 hn
        rw [hg hp]; exact h4 hp
  · rcases h.up with g | ⟨g1, _, _, _, g2⟩
    · exact .inl g
    · exact .inr ⟨g1, g2 ⟨by rw [hg g1], hI.locks.even (by rw [hg g1]; exact h4 g1)⟩⟩

section
variable {a : Nat}

theorem stepU_start {key : Key} (hp : s.proc a = .upd (.start key)) :
    ∃ ph' st', stepU s.st (.start key) = .ok (ph', st') ∧ Inv env (s.set a st' (.upd ph')) σ t seen := by
  have hact : (s.proc a).active = true := by rw [hp]; rfl
  have hu : (s.proc a).unl = .none := by rw [hp]; rfl
  have htl : (s.proc a).plain = true := by rw [hp]; rfl
  have hP := hI.proc a
  rw [hp] at hP
  simp only [stepU]
  by_cases h : s.st.root = 0 ∨ isLeaf s.st.root = true
  · rw [if_pos h]
    exact ⟨_, _, rfl, hI.moveLocal hact hu htl rfl rfl rfl ⟨hP, h⟩⟩
  · rw [if_neg h]
    refine ⟨_, _, rfl, hI.moveLocal hact hu htl rfl rfl rfl ⟨[], ⟨hP, List.nil_prefix, rfl⟩, ?_, ?_⟩⟩
    · rcases rootWord_cases hI.mem.core with ⟨_, e⟩ | ⟨lk, lv, _, e⟩ | ⟨n, pfx, big, ch, e1, e2, _⟩
      · exact absurd (.inl e) h
      · exact absurd (.inr (by rw [e]; simp)) h
      · exact ⟨t, hI.mem.now a hact, 0, n, pfx, big, ch, by rw [e1]; exact .here _, e2⟩
    · rcases rootWord_cases hI.mem.core with ⟨_, e⟩ | ⟨lk, lv, _, e⟩ | ⟨n, pfx, big, ch, e1, e2, _⟩
      · exact absurd (.inl e) h
      · exact absurd (.inr (by rw [e]; simp)) h
      · exact .inl ⟨rfl, rfl, rfl, hI.keyByteRoot e1⟩

theorem stepU_root {key : Key} {root : Word} (hp : s.proc a = .upd (.root key root)) :
    ∃ ph' st', stepU s.st (.root key root) = .ok (ph', st') ∧ Inv env (s.set a st' (.upd ph')) σ t seen := by
  have hact : (s.proc a).active = true := by rw [hp]; rfl
  have hu : (s.proc a).unl = .none := by rw [hp]; rfl
  have htl : (s.proc a).plain = true := by rw [hp]; rfl
  have hP := hI.proc a
  rw [hp] at hP
  obtain ⟨hk, hroot⟩ := hP
  simp only [stepU, St.lockLeafRoot]
  by_cases h0 : s.st.rootLock = 0
  · by_cases h1 : s.st.root = root
    · simp only [if_pos h0, if_pos h1]
      obtain ⟨k, hka, hkh⟩ := keyAt_zero (env.ne hk)
      rw [hka]
      simp only [bind, Except.bind, pure, Except.pure]
      have hnow := hI.mem.now a hact
      rcases rootWord_cases hI.mem.core with ⟨e1, e⟩ | ⟨lk, lv, e1, e⟩ | ⟨n, pfx, big, ch, e1, e2, e3, e4⟩
      · rw [if_pos (by rw [← h1, e])]
        exact ⟨_, _, rfl, hI.moveRoot hact hu htl rfl rfl h0 rfl ⟨hk, rfl, by simp, .inl ⟨rfl, e1, hkh⟩⟩⟩
      · rw [if_neg (by rw [← h1, e]; exact buildLeaf_ne_zero _ _)]
        have hkb : keyByte root = lk.headD 0 := by rw [← h1, e]; simp
        by_cases hb : keyByte root = k
        · rw [if_pos hb]
          have hval : leafValue root = trunc55 lv := by rw [← h1, e]; simp
          exact ⟨_, _, rfl, hI.moveRoot hact hu htl rfl rfl h0 rfl ⟨hk, rfl,
            fun _ => ⟨t, lk, lv, hnow, by rw [e1]; exact ⟨rfl, rfl⟩, hval⟩,
            .inl ⟨rfl, lk, lv, e1, by rw [← e]; exact h1.symm, hkh, by rw [← hkb]; exact hb, hval⟩⟩⟩
        · rw [if_neg hb]
          exact ⟨_, _, rfl, hI.moveRoot hact hu htl rfl rfl h0 rfl ⟨hk, rfl, by simp,
            .inl ⟨rfl, lk, lv, e1, by rw [← e]; exact h1.symm, hkh, by rw [← hkb]; exact hb⟩⟩⟩
      · rcases hroot with hr | hr
        · exact absurd (h1.trans hr) e3
        · rw [← h1, e4] at hr; cases hr
    · simp only [if_pos h0, if_neg h1]
      exact ⟨_, _, rfl, hI.moveLocal hact hu htl rfl rfl rfl hk⟩
  · simp only [if_neg h0]
    exact ⟨_, _, rfl, hI.moveLocal hact hu htl rfl rfl rfl hk⟩

/-- The generation of the node is read (possibly while another operation holds the lock for a moment). -/
theorem genU_inv {op : UpdOp} (hp : s.proc a = .upd (.gen op)) {g : Int} (hg : g / 2 = s.st.gen (nodeAddr op.raw) / 2) :
    Inv env (s.set a s.st (.upd (.ptr { op with node := nodeAddr op.raw, count := nodeCount op.raw, nodeGen := g }))) σ t seen := by
  have hact : (s.proc a).active = true := by rw [hp]; rfl
  have hu : (s.proc a).unl = .none := by rw [hp]; rfl
  have htl : (s.proc a).plain = true := by rw [hp]; rfl
  have hP := hI.proc a
  rw [hp] at hP
  obtain ⟨q, hk, hw⟩ := hP
  refine hI.moveLocal hact hu htl rfl rfl rfl ⟨q, ⟨hk.key, hk.path, hk.depth⟩, ⟨⟨hw.ref, hw.up⟩, rfl, Int.le_of_eq hg, ?_⟩, rfl⟩
  intro h0 hs
  rcases hw.up with g' | ⟨_, _, _, g', _⟩
  · exact absurd g'.1 h0
  · have : s.st.gen op.parent = s.st.gen (nodeAddr op.raw) := gen_congr hs
    show op.parentGen / 2 ≤ g / 2
    rw [hg, ← this]; exact g'

theorem genU_ok {op : UpdOp} (hp : s.proc a = .upd (.gen op)) :
    s.st.generation (nodeAddr op.raw) = .ok (s.st.gen (nodeAddr op.raw)) := by
  have hact : (s.proc a).active = true := by rw [hp]; rfl
  have hP := hI.proc a
  rw [hp] at hP
  obtain ⟨q, hk, hw⟩ := hP
  obtain ⟨n, pfx, big, ch, hv, _, _⟩ := hI.mem.look hact hw.ref
  have := generation_view hv
  rwa [← hv.addr] at this

theorem stepU_gen {op : UpdOp} (hp : s.proc a = .upd (.gen op)) :
    ∃ ph' st', stepU s.st (.gen op) = .ok (ph', st') ∧ Inv env (s.set a st' (.upd ph')) σ t seen := by
  simp only [stepU]
  rw [genU_ok hI hp]
  exact ⟨_, _, rfl, genU_inv hI hp rfl⟩

theorem stepU_ptr {op : UpdOp} (hp : s.proc a = .upd (.ptr op)) :
    ∃ ph' st', stepU s.st (.ptr op) = .ok (ph', st') ∧ Inv env (s.set a st' (.upd ph')) σ t seen := by
  have hact : (s.proc a).active = true := by rw [hp]; rfl
  have hu : (s.proc a).unl = .none := by rw [hp]; rfl
  have htl : (s.proc a).plain = true := by rw [hp]; rfl
  have hP := hI.proc a
  rw [hp] at hP
  obtain ⟨q, hk, hw, hc⟩ := hP
  simp only [stepU]
  by_cases h : s.st.load op.nodePtr ≠ op.raw
  · rw [if_pos h]
    exact ⟨_, _, rfl, hI.moveLocal hact hu htl rfl rfl rfl hk.key⟩
  · rw [if_neg h]
    have h' : s.st.load op.nodePtr = op.raw := by simpa using h
    exact ⟨_, _, rfl, hI.moveLocal hact hu htl rfl rfl rfl ⟨q, hk, { hw with live0 := fun h0 _ => hw.live_of_root hI hact h0 h' }, hc⟩⟩

/-- The check of the parent's generation is passed. -/
theorem parU_inv {op : UpdOp} (hp : s.proc a = .upd (.par op)) (h : op.parent ≠ 0) (hg : s.st.gen op.parent / 2 = op.parentGen / 2)
    (hsafe : s.Safe op.parent op.node op.raw) : Inv env (s.set a s.st (.upd (.body op))) σ t seen := by
  have hact : (s.proc a).active = true := by rw [hp]; rfl
  have hu : (s.proc a).unl = .none := by rw [hp]; rfl
  have htl : (s.proc a).plain = true := by rw [hp]; rfl
  have hP := hI.proc a
  rw [hp] at hP
  obtain ⟨q, hk, hw, hc⟩ := hP
  refine hI.moveLocal hact hu htl rfl rfl rfl ⟨q, hk,
    { hw.toW2 with live := fun hf => hw.toW2.live_of_safe hI hact h hg hsafe hf, eq := ?_ }, hc⟩
  intro h0 hs
  have h1 := hw.le h0 hs
  have h2 := hw.ng
  have h3 : s.st.gen op.parent = s.st.gen op.node := gen_congr hs
  have h4 : op.nodeGen / 2 ≤ s.st.gen op.node / 2 := h2
  have h5 : op.parentGen / 2 ≤ op.nodeGen / 2 := h1
  have h6 := hg
  show op.parentGen / 2 = op.nodeGen / 2
  rw [h3] at h6
  omega

/-- A restart. -/
theorem parU_restart {op : UpdOp} (hp : s.proc a = .upd (.par op)) : Inv env (s.set a s.st (.upd (.start op.key))) σ t seen := by
  have hact : (s.proc a).active = true := by rw [hp]; rfl
  have hu : (s.proc a).unl = .none := by rw [hp]; rfl
  have htl : (s.proc a).plain = true := by rw [hp]; rfl
  have hP := hI.proc a
  rw [hp] at hP
  obtain ⟨q, hk, hw, hc⟩ := hP
  exact hI.moveLocal hact hu htl rfl rfl rfl hk.key

theorem parU_ok {op : UpdOp} (hp : s.proc a = .upd (.par op)) (h : op.parent ≠ 0) :
    s.st.generation op.parent = .ok (s.st.gen op.parent) := by
  have hP := hI.proc a
  rw [hp] at hP
  obtain ⟨q, hk, hw, hc⟩ := hP
  have hup : op.parent / blockSlots < s.st.baNext := by
    rcases hw.up with g | ⟨_, _, g1, g2, _⟩
    · exact absurd g.1 h
    · exact g1
  unfold St.generation lockBlock
  rw [if_pos (Nat.lt_of_lt_of_le hup s.st.baNext_le)]

theorem stepU_par {op : UpdOp} (hp : s.proc a = .upd (.par op)) (hcalm : Calm s (.run a)) :
    ∃ ph' st', stepU s.st (.par op) = .ok (ph', st') ∧ Inv env (s.set a st' (.upd ph')) σ t seen := by
  have hact : (s.proc a).active = true := by rw [hp]; rfl
  have hu : (s.proc a).unl = .none := by rw [hp]; rfl
  have htl : (s.proc a).plain = true := by rw [hp]; rfl
  simp only [Calm, hp] at hcalm
  simp only [stepU]
  by_cases h : op.parent = 0
  · rw [if_pos h]
    have hP := hI.proc a
    rw [hp] at hP
    obtain ⟨q, hk, hw, hc⟩ := hP
    exact ⟨_, _, rfl, hI.moveLocal hact hu htl rfl rfl rfl ⟨q, hk, { hw.toW2 with live := hw.live0 h, eq := fun h0 => absurd h h0 }, hc⟩⟩
  · rw [if_neg h, parU_ok hI hp h]
    simp only [bind, Except.bind, pure, Except.pure]
    by_cases hne : op.parentGen ≠ s.st.gen op.parent
    · rw [if_pos hne]
      exact ⟨_, _, rfl, parU_restart hI hp⟩
    · rw [if_neg hne]
      have heq : s.st.gen op.parent = op.parentGen := (Decidable.not_not.1 hne).symm
      exact ⟨_, _, rfl, parU_inv hI hp h (by rw [heq]) (hcalm h heq)⟩

theorem stepU_body {op : UpdOp} (hp : s.proc a = .upd (.body op)) :
    ∃ ph' st', stepU s.st (.body op) = .ok (ph', st') ∧ Inv env (s.set a st' (.upd ph')) σ t seen := by
  have hact : (s.proc a).active = true := by rw [hp]; rfl
  have hu : (s.proc a).unl = .none := by rw [hp]; rfl
  have htl : (s.proc a).plain = true := by rw [hp]; rfl
  have hP := hI.proc a
  rw [hp] at hP
  obtain ⟨q, hk, hw, hc⟩ := hP
  obtain ⟨n, pfx, big, ch, hv, ⟨t1, hs1, hat1⟩, hlive⟩ := hI.mem.look hact hw.ref
  have hn : op.node = n := by rw [← hv.addr]; exact hw.node
  subst hn
  have hcnt : op.count = cnt big ch := by rw [hc]; exact hv.count
  have hfl : Fresh s op.node op.nodeGen → At t q (.node op.node pfx big ch) := fun hf => hlive (hw.live hf)
  simp only [stepU]
  rcases bodyU_view hv (env.adm hk.key) rfl rfl hcnt hk.path hk.depth with
    ⟨p1, kb, p2, ka, rest, k0, e1, e2, e3, e4⟩ | ⟨k, rest, e1, e2⟩
  · rw [e4]
    refine ⟨_, _, rfl, hI.moveLocal hact hu htl rfl rfl rfl ⟨hk.key, rfl, rfl, by simp, q, pfx, big, hw, ?_⟩⟩
    intro hf
    exact ⟨ch, hfl hf, hv.ref, hcnt, rfl, rfl, rfl, .inl ⟨rfl, p1, kb, p2, ka, rest, e1, e2, e3, hk.depth, rfl⟩⟩
  · rw [e2]
    have hpath : q ++ pfx ++ [k] <+: op.key := ⟨rest, by rw [e1]; simp⟩
    have hdep : op.depth + pfx.length = (q ++ pfx).length := by rw [hk.depth]; simp
    cases hck : ch k with
    | empty =>
      cases big with
      | true =>
        refine ⟨_, _, rfl, hI.moveLocal hact hu htl rfl rfl rfl ⟨hk.key, rfl, rfl, by simp, q, pfx, true, hw, ?_⟩⟩
        intro hf
        exact ⟨ch, hfl hf, hv.ref, hcnt, rfl, rfl, rfl, .inr ⟨⟨hdep, hpath⟩, .inl ⟨rfl, rfl, hck, rfl⟩⟩⟩
      | false =>
        refine ⟨_, _, rfl, hI.moveLocal hact hu htl rfl rfl rfl ⟨hk.key, rfl, rfl, by simp, q, pfx, false, hw, ?_⟩⟩
        intro hf
        exact ⟨ch, hfl hf, hv.ref, hcnt, rfl, rfl, rfl, .inr ⟨⟨hdep, hpath⟩, .inr (.inl ⟨rfl, rfl, hck, rfl⟩)⟩⟩
    | leaf lk lv =>
      have hwf := hv.wf.2.2 k
      rw [hck] at hwf
      have hcand : Cand (seen a) (leafValue (wordOf k (T.leaf lk lv))) := by
        refine ⟨t1, lk, lv, hs1, ?_, by simp [wordOf]⟩
        have := hat1.child k
        rw [hck] at this
        exact this.has ⟨rfl, rfl⟩
      refine ⟨_, _, rfl, hI.moveLocal hact hu htl rfl rfl rfl ⟨hk.key, ?_, ?_, fun _ => hcand, q, pfx, big, hw, ?_⟩⟩
      · cases big <;> rfl
      · cases big <;> rfl
      · intro hf
        exact ⟨ch, hfl hf, hv.ref, hcnt, rfl, rfl, rfl, .inr ⟨⟨hdep, hpath⟩, .inr (.inr ⟨rfl, lk, lv, hwf.1, hwf.2, rfl,
          by simp [wordOf], .inl hck, rfl⟩)⟩⟩
    | node n' pfx' b' kids =>
      refine ⟨_, _, rfl, hI.moveLocal hact hu htl rfl rfl rfl ⟨q ++ pfx ++ [k], ⟨hk.key, hpath, ?_⟩, ?_, ?_⟩⟩
      · show op.depth + pfx.length + 1 = _
        rw [hdep]; simp only [List.length_append, List.length_singleton]
      · refine ⟨t1, hs1, k, n', pfx', b', kids, ?_, rfl⟩
        have := hat1.child k
        rwa [hck] at this
      · have h0 : op.node ≠ 0 := by have := hv.inb.1.1; omega
        refine .inr ⟨h0, by simp, hv.inb.1.2.1, hw.ng, ?_⟩
        intro hf
        exact ⟨q, pfx, big, ch, k, hfl hf, rfl, rfl, by rw [hck]; rfl, by rw [hck]; rfl⟩

theorem stepU_lock {op : UpdOp} {found : Bool} (hp : s.proc a = .upd (.lock found op)) :
    ∃ ph' st', stepU s.st (.lock found op) = .ok (ph', st') ∧ Inv env (s.set a st' (.upd ph')) σ t seen := by
  have hact : (s.proc a).active = true := by rw [hp]; rfl
  have hu : (s.proc a).unl = .none := by rw [hp]; rfl
  have htl : (s.proc a).plain = true := by rw [hp]; rfl
  have hP := hI.proc a
  rw [hp] at hP
  obtain ⟨hk, hr, hfd, hcand, q, pfx, big, hw, hkn⟩ := hP
  simp only [stepU]
  rcases lockNodes2_spec s.st op.node op.nodeGen op.parent op.parentGen with ⟨h1, h2, h3, h4, h5⟩ | ⟨_, h5⟩
  · rw [h5]
    obtain ⟨g1, g2, g3⟩ := W4.locked hI hw h1 h2 h3 h4
    obtain ⟨ch, g4⟩ := hkn g1
    have hul : op.unl = .two op.node op.parent := by
      unfold UKind.isRoot at hr
      unfold UpdOp.unl
      split at hr <;> simp_all
    refine ⟨_, _, rfl, hI.moveLock hact hu htl rfl ?_ ?_ rfl g2 ⟨hk, hfd, hcand, .inr ⟨hr, q, pfx, big, ch, g4, g3⟩⟩⟩
    · show op.unl.list = _
      rw [hul]; rfl
    · show op.unl ≠ _
      rw [hul]; simp
  · rw [h5]
    exact ⟨_, _, rfl, hI.moveLocal hact hu htl rfl rfl rfl hk⟩

/-- Every step of an update before it is prepared succeeds and preserves the invariant. -/
theorem stepU_inv {ph : UPh} (hp : s.proc a = .upd ph) (hcalm : Calm s (.run a)) (h1 : ∀ f op, ph ≠ .held f op)
    (h2 : ∀ r tl, ph ≠ .tail r tl) :
    ∃ ph' st', stepU s.st ph = .ok (ph', st') ∧ Inv env (s.set a st' (.upd ph')) σ t seen := by
  cases ph with
  | start key => exact stepU_start hI hp
  | root key root => exact stepU_root hI hp
  | gen op => exact stepU_gen hI hp
  | ptr op => exact stepU_ptr hI hp
  | par op => exact stepU_par hI hp hcalm
  | body op => exact stepU_body hI hp
  | lock f op => exact stepU_lock hI hp
  | held f op => exact absurd rfl (h1 f op)
  | tail r tl => exact absurd rfl (h2 r tl)

end
end

end Radix
