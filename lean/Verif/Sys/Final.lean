import Verif.Sys.Publish
/-!
# The steps of `Finalize` preserve the invariant

Building the new nodes (`buildU_inv`, `buildD_inv`), the store or compare-and-swap that publishes the change (`commitU_inv`,
`commitD_inv`), and both without interruption (`publishU_inv`, `publishD_inv`).
-/
set_option autoImplicit false

namespace Radix
open T

/-! ## The node that is written to, and the node that has been copied -/

/-- Slot `x` belongs to a node of the tree whose lock is among `L`. -/
def InLocked (t : T) (L : List Nat) (x : Nat) : Prop :=
  ∃ q n pfx big ch, At t q (.node n pfx big ch) ∧ n ∈ L ∧ n ≤ x ∧ x < n + nodeSize pfx big ch

theorem HoldUp.inLocked {t : T} {p : Pos} {q : Key} {x : Nat} {L : List Nat} (h : HoldUp t p q) (hx : p.nodePtr = .slot x)
    (hL : p.parent ≠ 0 → p.parent ∈ L) : InLocked t L x := by
  rcases h with ⟨_, h, _⟩ | ⟨h0, q0, pfx, big, ch, c, h1, _, h3, h4, _⟩
  · rw [h] at hx; cases hx
  · rw [h3] at hx
    have e := Ptr.slot.inj hx
    have hr := childSlot_range (a := p.parent) (pfx := pfx) (big := big) (ch := ch) (c := c) (.inr (by
      cases hc : ch c <;> simp_all [T.isNode, T.isEmpty]))
    exact ⟨q0, p.parent, pfx, big, ch, h1, hL h0, by omega, by omega⟩

theorem parent_mem2 {n p : Nat} (h : p ≠ 0) : p ∈ lockList2 n p := by
  unfold lockList2
  rw [if_neg h]; simp

theorem parent_mem3 {c n p : Nat} (h : p ≠ 0) : p ∈ lockList3 c n p := by
  unfold lockList3
  rw [if_neg h]; simp

theorem child_mem3 {c n p : Nat} : c ∈ lockList3 c n p := by
  unfold lockList3
  split <;> simp

theorem unl_of_kind {op : UpdOp} (h : op.kind.isRoot = false) : op.unl.list = lockList2 op.node op.parent := by
  unfold UKind.isRoot at h
  unfold UpdOp.unl
  split at h <;> simp_all [Unlock.list]

/-- A prepared update writes to a node that it has locked, or to the root. -/
theorem UBlt.target {env : Env} {st : St} {t : T} {op : UpdOp} {value : Word} {cm : Commit} {q pfx : List UInt8} {big : Bool}
    {ch : UInt8 → T} {x : Nat} (h : UBlt env.P st t op value cm q pfx big ch)
    (hf : (op.kind.isRoot = true ∧ UFact env.P t op) ∨ (op.kind.isRoot = false ∧ UKnow env t op q pfx big ch ∧ HoldUp t op.pos q))
    (hx : cm.ptr = .slot x) : InLocked t op.unl.list x := by
  have hslot : UKnow env t op q pfx big ch → op.leafPtr = .slot (childSlot op.node pfx big ch op.k) →
      (big = true ∨ (ch op.k).isEmpty = false) → op.leafPtr = .slot x → InLocked t (lockList2 op.node op.parent) x := by
    intro hk h1 h2 h3
    rw [h1] at h3
    have e := Ptr.slot.inj h3
    have hr := childSlot_range (a := op.node) (pfx := pfx) (big := big) (ch := ch) (c := op.k) h2
    exact ⟨q, op.node, pfx, big, ch, hk.at', mem_lockList2 _ _, by omega, by omega⟩
  unfold UBlt at h
  rcases hf with ⟨hr, hf⟩ | ⟨hr, hk, hu⟩
  · unfold UFact at hf
    unfold UKind.isRoot at hr
    split at hr <;> first | (cases hr; done) | skip
    all_goals rename_i hkind; simp only [hkind] at h hf
    · rw [h] at hx; cases hx
    · obtain ⟨lk, lv, e, _⟩ := hf
      obtain ⟨n, _, h⟩ := h lk lv e
      rw [h] at hx; cases hx
    · obtain ⟨lk, lv, e, _⟩ := hf
      rcases h lk lv e with ⟨_, h⟩ | ⟨_, c, n, _, h⟩ <;> (rw [h] at hx; cases hx)
  · rw [unl_of_kind hr]
    have hnp : op.nodePtr = .slot x → InLocked t (lockList2 op.node op.parent) x := fun e =>
      hu.inLocked (p := op.pos) e parent_mem2
    rcases hk.kind with ⟨e, _⟩ | ⟨_, ⟨e, hb, _, h4⟩ | ⟨e, _⟩ | ⟨e, lk, lv, h3, h4, h5, h6, h7, h8⟩⟩
    · simp only [e] at h
      obtain ⟨_, _, _, _, _, _, _, _, _, _, _, _, h⟩ := h
      rw [h] at hx
      exact hnp hx
    · simp only [e] at h
      rw [h] at hx
      subst hb
      exact hslot hk h4 (.inl rfl) hx
    · simp only [e] at h
      obtain ⟨_, _, _, _, h⟩ := h
      rw [h] at hx
      exact hnp hx
    · have h2 : big = true ∨ (ch op.k).isEmpty = false := by
        rcases h7 with h7 | ⟨h7, _⟩
        · exact .inr (by rw [h7]; rfl)
        · exact .inl h7
      have hp : cm.ptr = op.leafPtr := by
        cases big with
        | true =>
          simp only [e] at h
          rcases h lk lv h4 h5 h6 h3 with ⟨_, h⟩ | ⟨_, _, _, _, h⟩ <;> rw [h]
        | false =>
          simp only [e] at h
          rcases h lk lv h4 h5 h6 h3 with ⟨_, h⟩ | ⟨_, _, _, _, h⟩ <;> rw [h]
      rw [hp] at hx
      exact hslot hk h8 h2 hx

/-- A prepared update copies a node that it has locked. -/
theorem UBlt.source {env : Env} {st : St} {t : T} {op : UpdOp} {value : Word} {cm : Commit} {q pfx : List UInt8} {big : Bool}
    {ch : UInt8 → T} {x : Nat} (h : UBlt env.P st t op value cm q pfx big ch)
    (hf : (op.kind.isRoot = true ∧ UFact env.P t op) ∨ (op.kind.isRoot = false ∧ UKnow env t op q pfx big ch ∧ HoldUp t op.pos q))
    (hx : 0 < cm.ok.seg x) : InLocked t op.unl.list x := by
  have hnode : UKnow env t op q pfx big ch → 0 < seg op.node (op.count + op.prefixSlots) x → InLocked t (lockList2 op.node op.parent) x := by
    intro hk h1
    obtain ⟨h2, h3⟩ := seg_pos.1 h1
    refine ⟨q, op.node, pfx, big, ch, hk.at', mem_lockList2 _ _, h2, ?_⟩
    unfold nodeSize
    rw [hk.count, hk.slots] at h3
    omega
  unfold UBlt at h
  rcases hf with ⟨hr, hf⟩ | ⟨hr, hk, hu⟩
  · exfalso
    unfold UFact at hf
    unfold UKind.isRoot at hr
    split at hr <;> first | (cases hr; done) | skip
    all_goals rename_i hkind; simp only [hkind] at h hf
    · rw [h] at hx; simp [Tail.seg] at hx
    · obtain ⟨lk, lv, e, _⟩ := hf
      obtain ⟨n, _, h⟩ := h lk lv e
      rw [h] at hx; simp [Tail.seg] at hx
    · obtain ⟨lk, lv, e, _⟩ := hf
      rcases h lk lv e with ⟨_, h⟩ | ⟨_, c, n, _, h⟩ <;> (rw [h] at hx; simp [Tail.seg] at hx)
  · rw [unl_of_kind hr]
    rcases hk.kind with ⟨e, _⟩ | ⟨_, ⟨e, hb, _, h4⟩ | ⟨e, _⟩ | ⟨e, lk, lv, h3, h4, h5, h6, h7, h8⟩⟩
    · simp only [e] at h
      obtain ⟨_, _, _, _, _, _, _, _, _, _, _, _, h⟩ := h
      rw [h] at hx
      exact hnode hk hx
    · simp only [e] at h
      rw [h] at hx
      simp [Tail.seg] at hx
    · simp only [e] at h
      obtain ⟨_, _, _, _, h⟩ := h
      rw [h] at hx
      exact hnode hk hx
    · exfalso
      have hp : cm.ok.free = none := by
        cases big with
        | true =>
          simp only [e] at h
          rcases h lk lv h4 h5 h6 h3 with ⟨_, h⟩ | ⟨_, _, _, _, h⟩ <;> rw [h]
        | false =>
          simp only [e] at h
          rcases h lk lv h4 h5 h6 h3 with ⟨_, h⟩ | ⟨_, _, _, _, h⟩ <;> rw [h]
      simp [Tail.seg, hp] at hx

/-- A prepared delete writes to a node that it has locked, or to the root; except `deleteLeaf256`. -/
theorem PInvDB.target {env : Env} {s : Sys} {t : T} {S : T → Prop} {cur : DelCur} {cm : Commit} {x : Nat} (h : PInvDB env s t S cur cm)
    (hk : cur.op.kind ≠ .deleteLeaf256) (hx : cm.ptr = .slot x) : InLocked t cur.op.unl.list x := by
  obtain ⟨_, q, pfx, ch, big2, kids, h2, h3⟩ := h
  unfold DBlt at h2
  rcases h3 with ⟨h3, h4⟩ | ⟨h3, h4, h5⟩ | ⟨h3, k, k2, lk, lv, pfx2, h4, h5, h6⟩ | ⟨h3, _⟩
  · simp only [h3] at h2
    rw [h2] at hx; cases hx
  · have hl : cur.op.unl.list = lockList2 cur.op.node cur.op.parent := by
      rcases h3 with h3 | h3 <;> simp [DelOp.unl, h3, Unlock.list]
    rw [hl]
    rcases h3 with h3 | h3
    · simp only [h3] at h2
      obtain ⟨_, _, _, _, _, h2⟩ := h2
      rw [h2] at hx
      exact h5.inLocked (p := cur.op.pos) hx parent_mem2
    · simp only [h3] at h2
      rw [h2] at hx
      exact h5.inLocked (p := cur.op.pos) hx parent_mem2
  · have hl : cur.op.unl.list = lockList3 cur.op.child cur.op.node cur.op.parent := by simp [DelOp.unl, h3, Unlock.list]
    rw [hl]
    simp only [h3] at h2
    obtain ⟨_, _, h2⟩ := h2
    rw [h2] at hx
    exact h5.inLocked (p := cur.op.pos) hx parent_mem3
  · exact absurd h3 hk

/-- A prepared delete copies, or removes, a node that it has locked. -/
theorem PInvDB.source {env : Env} {s : Sys} {t : T} {S : T → Prop} {cur : DelCur} {cm : Commit} {x : Nat} (h : PInvDB env s t S cur cm)
    (hx : 0 < cm.ok.seg x) : InLocked t cur.op.unl.list x := by
  obtain ⟨_, q, pfx, ch, big2, kids, h2, h3⟩ := h
  unfold DBlt at h2
  rcases h3 with ⟨h3, h4⟩ | ⟨h3, h4, h5⟩ | ⟨h3, k, k2, lk, lv, pfx2, h4, h5, h6, h7⟩ | ⟨h3, _⟩
  · simp only [h3] at h2
    rw [h2] at hx; simp [Tail.seg] at hx
  · have hl : cur.op.unl.list = lockList2 cur.op.node cur.op.parent := by
      rcases h3 with h3 | h3 <;> simp [DelOp.unl, h3, Unlock.list]
    rw [hl]
    have hcount : cur.op.count = cntOf (present ch) := by
      rcases h4.kind with ⟨_, _, _, _, _, _, _, e, _⟩ | ⟨_, k, k2, lk, lv, lk2, lv2, e, e2, _, e4, _⟩
      · exact e
      · rw [e, e4, cntOf_ch2 (ta := .leaf lk lv) (tb := .leaf lk2 lv2) rfl rfl e2]
    have hseg : 0 < seg cur.op.node (cur.op.count + cur.op.prefixSlots) x := by
      rcases h3 with h3 | h3
      · simp only [h3] at h2
        obtain ⟨_, _, _, _, _, h2⟩ := h2
        rw [h2] at hx
        exact hx
      · simp only [h3] at h2
        rw [h2] at hx
        exact hx
    obtain ⟨g1, g2⟩ := seg_pos.1 hseg
    refine ⟨q, _, pfx, false, ch, h4.at', mem_lockList2 _ _, g1, ?_⟩
    rw [hcount, h4.slots] at g2
    simp only [nodeSize, cnt, Bool.false_eq_true, if_false]
    omega
  · have hl : cur.op.unl.list = lockList3 cur.op.child cur.op.node cur.op.parent := by simp [DelOp.unl, h3, Unlock.list]
    rw [hl]
    simp only [h3] at h2
    obtain ⟨_, _, h2⟩ := h2
    rw [h2] at hx
    obtain ⟨g1, g2⟩ := seg_pos.1 hx
    have hat : At t (q ++ pfx ++ [k2]) (.node cur.op.child pfx2 big2 kids) := by
      have := h4.at'.child k2
      rwa [ch2_snd] at this
    refine ⟨_, _, pfx2, big2, kids, hat, child_mem3, g1, ?_⟩
    unfold nodeSize
    rw [h4.count, h6] at g2
    omega
  · simp only [h3] at h2
    rw [h2] at hx; simp [Tail.seg] at hx

/-- An operation that has copied a node holds its lock. -/
theorem PInv.source {env : Env} {s : Sys} {t : T} {S : T → Prop} {p : Proc} {x : Nat} (h : PInv env s t S p) (hx : 0 < p.copied x) :
    InLocked t p.unl.list x := by
  cases p with
  | updB op value cm =>
    obtain ⟨_, q, pfx, big, ch, h2, h3⟩ := h
    exact h2.source h3 hx
  | delB cur cm => exact PInvDB.source h hx
  | _ => simp [Proc.copied, Proc.cm?] at hx

theorem commit_mem (st : St) (cm : Commit) {x : Nat} (h : (st.commit cm).2.2.mem x ≠ st.mem x) : cm.ptr = .slot x := by
  have hs : (st.store cm.ptr cm.new).mem x ≠ st.mem x → cm.ptr = .slot x := by
    cases hp : cm.ptr with
    | root => intro h; exact absurd rfl h
    | slot y =>
      intro h
      by_cases hy : x = y
      · rw [hy]
      · exfalso; apply h; simp [St.store, upd_of_ne _ _ hy]
  unfold St.commit at h
  split at h
  · exact hs h
  · simp only [St.cas] at h
    split at h
    · exact hs h
    · exact absurd rfl h

theorem commit_nblocks (st : St) (cm : Commit) : (st.commit cm).2.2.nblocks = st.nblocks := by
  have hs : ∀ p w, (st.store p w).nblocks = st.nblocks := by intro p w; cases p <;> rfl
  unfold St.commit
  split
  · exact hs _ _
  · simp only [St.cas]; split
    · exact hs _ _
    · rfl

section
variable {env : Env} {s : Sys} {σ : Spec} {t : T} {seen : Nat → T → Prop} (hI : Inv env s σ t seen) {a : Nat}
include hI

/-- Two operations do not hold the lock of the same node. -/
theorem Inv.inLocked {b x : Nat} (hab : b ≠ a) (h1 : InLocked t (s.proc a).unl.list x) (h2 : InLocked t (s.proc b).unl.list x) : False := by
  obtain ⟨q1, n1, pfx1, big1, ch1, h1, h1', h1a, h1b⟩ := h1
  obtain ⟨q2, n2, pfx2, big2, ch2, h2, h2', h2a, h2b⟩ := h2
  have hx : t.cover x ≤ 1 := by have := hI.mem.core.sep x; omega
  have e := At.inj hx h1 h1a h1b h2 h2a h2b
  subst e
  have e := h1.det h2
  injection e with e1
  subst e1
  exact hI.locks.excl b a hab n1 h2' n1 h1' (sameLock_refl _)

theorem Inv.hkeys : Keys t (s.st.total + s.items) := by
  obtain ⟨l, g1, g2, g3⟩ := hI.mem.count
  exact ⟨l, g1, g2, g3⟩

/-- Building new nodes. -/
theorem Inv.build {st' : St} {p' : Proc} {cm : Commit} (hact : (s.proc a).active = true) (hpl : (s.proc a).plain = true)
    (hact' : p'.active = true) (htail' : p'.tail? = none) (hcm : p'.cm? = some cm) (hunl : p'.unl = (s.proc a).unl)
    (heff : AllocEff a s.st st' s.pend (fun x => s.pend x + cm.priv x))
    (hpa : PInv env (s.set a st' p') t (fun t1 => seen a t1) p') : Inv env (s.set a st' p') σ t seen := by
  have ha := hI.lt_of_active hact
  have hpend : (s.set a st' p').pend = fun x => s.pend x + cm.priv x := by
    funext x
    have := pend_step (s := s) (s' := s.set a st' p') ha heff.nalloc (fun b hb => Sys.set_other _ _ _ _ hb) x
    rw [Proc.pend_none hpl, Sys.set_self] at this
    simp only [Nat.add_zero] at this
    rw [this]
    unfold Proc.pend Proc.priv
    rw [htail', hcm]
  have hpv : ∀ x, p'.priv x = cm.priv x := by
    intro x; unfold Proc.priv; rw [hcm]
  have hits : p'.items = 0 := Proc.items_none htail'
  have hsame : ∀ b, ((s.set a st' p').proc b).active = (s.proc b).active := by
    intro b
    by_cases hb : b = a
    · subst hb; rw [Sys.set_self, hact, hact']
    · rw [Sys.set_other _ _ _ _ hb]
  have hseen : (fun t1 => seen a t1 ∨ t1 = t) = fun t1 => seen a t1 := by
    funext t1
    refine propext ⟨?_, .inl⟩
    rintro (h | rfl)
    · exact h
    · exact hI.mem.now a hact
  have h := hI.publish (a := a) (st' := st') (t' := t) (p' := p') (σ' := σ) (Q := fun _ => 0) (L := []) hact (Proc.plain_tail hpl) hact' hunl
    (by rw [hpend]; exact build_pub hI.mem.core ha heff) (fun x hx => absurd hx (Nat.lt_irrefl 0)) (.inl rfl) ?_ ?_ hI.mem.content
    (fun _ _ h => h) (fun b hb => hI.mem.win b t hb (hI.mem.now b hb)) (by rw [hits, Int.add_zero]; exact hI.hkeys) (fun _ => .inr rfl)
    (by rw [hseen]; exact hpa)
  · refine h.congr_seen ?_
    intro b hb x
    rw [hsame] at hb
    refine ⟨.inl, ?_⟩
    rintro (h | rfl)
    · exact h
    · exact hI.mem.now b hb
  · intro x hx
    rw [hpv] at hx
    have := heff.avail x
    omega
  · intro b hb x hx _
    refine heff.mem x ?_
    have h2 := hI.mem.core.sep x
    have h3 := freeP_le (availNow s.st) s.st x
    omega

/-- Publishing a change. -/
theorem Inv.commit {st' : St} {t' : T} {p' : Proc} {cm : Commit} {tl : Tail} {σ' : Spec} (hact : (s.proc a).active = true)
    (htail : (s.proc a).tail? = none) (hcm : (s.proc a).cm? = some cm) (hact' : p'.active = true) (htail' : p'.tail? = some tl)
    (hcm' : p'.cm? = none) (hunl : tl.unl = (s.proc a).unl)
    (hpub : PubEff env.P s.st st' t t' s.pend (fun x => s.pend x - cm.priv x + tl.seg x) cm.priv (s.proc a).unl.list)
    (hst : st' = (s.st.commit cm).2.2)
    (htgt : ∀ x, cm.ptr = .slot x → st'.mem x ≠ s.st.mem x → InLocked t (s.proc a).unl.list x ∨ ¬ s.Copied x)
    (hcont : Contents t' σ'.map) (hw1 : ∀ b, ∀ M ∈ σ.window b, M ∈ σ'.window b)
    (hw2 : ∀ b, (s.proc b).active = true → ∃ M ∈ σ'.window b, Contents t' M) (hkeys : Keys t' (s.st.total + s.items + tl.items))
    (hroot : t.isNode = false → (s.proc a).unl = .root ∨ t' = t)
    (hpa : PInv env (s.set a st' p') t' (fun t1 => seen a t1 ∨ t1 = t') p') :
    Inv env (s.set a st' p') σ' t' (fun b t1 => seen b t1 ∨ t1 = t') := by
  have ha := hI.lt_of_active hact
  have hpv : ∀ x, (s.proc a).priv x = cm.priv x := by
    intro x; unfold Proc.priv; rw [hcm]
  have hpend : (s.set a st' p').pend = fun x => s.pend x - cm.priv x + tl.seg x := by
    funext x
    have h1 := pend_step (s := s) (s' := s.set a st' p') ha hpub.nalloc (fun b hb => Sys.set_other _ _ _ _ hb) x
    have h2 := Sys.priv_le hI.mem.off a x
    rw [hpv] at h2
    have h3 : (s.proc a).pend x = cm.priv x := by
      unfold Proc.pend; rw [htail]; exact hpv x
    have h4 : ((s.set a st' p').proc a).pend x = tl.seg x := by
      rw [Sys.set_self]; unfold Proc.pend; rw [htail']
    omega
  refine hI.publish hact htail hact' (by rw [Proc.unl_of_tail htail', hunl]) (by rw [hpend]; exact hpub)
    (fun x hx => by rw [hpv]; exact hx) (.inr ⟨tl, htail', by rw [hunl]⟩) (fun x hx => by rw [Proc.priv_none hcm'] at hx; omega) ?_
    hcont hw1 hw2 (by unfold Proc.items; rw [htail']; exact hkeys) hroot hpa
  intro b hb x hx1 hx2
  by_cases hne : st'.mem x = s.st.mem x
  · exact hne
  · exfalso
    have hptr : cm.ptr = .slot x := commit_mem s.st cm (by rw [← hst]; exact hne)
    rcases htgt x hptr hne with h | h
    · exact hI.inLocked hb h ((hI.proc b).source hx2)
    · exact h ⟨b, hx2⟩

omit hI in
/-- What publishing a change does to the tree `t`, by an operation holding the locks of the nodes `L`. -/
structure Swap (st st' : St) (t t' : T) (L : List Nat) : Prop where
  locks : st'.locks = st.locks
  mem : ∀ x, 0 < t.cover x → t'.cover x = 0 → st'.mem x = st.mem x
  stable : Stable t t' (fun n => n ∈ L)
  keep : Keep t t'

omit hI in
theorem PubEff.swap {P : Key → Word → Prop} {st st' : St} {t t' : T} {N N' Q M : Nat → Nat} {L : List Nat} (h : PubEff P st st' t t' N N' Q L)
    (hc : CoreN P st t M) : Swap st st' t t' L := by
  refine ⟨h.locks, fun x h1 h2 => h.mem x ?_ h2, h.stable, h.keep⟩
  have h3 := hc.sep x
  have h4 := freeP_le (availNow st) st x
  omega

/-! ## Updates -/

/-- Building the new nodes of an update: it fails because no memory is left, or the invariant holds afterwards. -/
theorem buildU_inv {found : Bool} {op : UpdOp} {value : Word} (hp : s.proc a = .upd (.held found op))
    (hall : env.Allowed s (.build a value)) :
    buildU s.st a op (env.fetch op.value) (decide (env.fetch op.value = op.key)) value = .error .noBlocks ∨
    ∃ cm st', buildU s.st a op (env.fetch op.value) (decide (env.fetch op.value = op.key)) value = .ok (cm, st') ∧
      AllocEff a s.st st' s.pend (fun x => s.pend x + cm.priv x) ∧ Inv env (s.set a st' (.updB op value cm)) σ t seen := by
  have hact : (s.proc a).active = true := by rw [hp]; rfl
  have ha := hI.lt_of_active hact
  have hP := hI.proc a
  rw [hp] at hP
  simp only [Env.Allowed, hp] at hall
  obtain ⟨hkey, _, _, hk⟩ := hP
  have hpair : env.P op.key (trunc55 value) := ⟨hkey, hall, by simp⟩
  have hdata : ∃ q pfx big ch C, pathOf C = q ∧ UFactAt env.P t op C pfx big ch ∧
      ((op.kind.isRoot = true ∧ UFact env.P t op) ∨ (op.kind.isRoot = false ∧ UKnow env t op q pfx big ch ∧ HoldUp t op.pos q)) := by
    rcases hk with ⟨h2, h3⟩ | ⟨h2, q, pfx, big, ch, h3, h4⟩
    · exact ⟨[], [], false, fun _ => .empty, [], rfl, root_factAt h2 h3 _ _ _ _, .inl ⟨h2, h3⟩⟩
    · obtain ⟨C, h5, h6⟩ := upd_factAt hI h3 h4
      exact ⟨q, pfx, big, ch, C, h5, h6, .inr ⟨h2, h3, h4⟩⟩
  obtain ⟨q, pfx, big, ch, C, hC, hf, hd⟩ := hdata
  rcases bldU_spec env.keysOK hI.mem.core ha hpair hf (fetched := env.fetch op.value)
    (isMatch := decide (env.fetch op.value = op.key)) (by
      rintro lk lv ⟨_, h1, h2⟩ h3
      rw [← h3, h2, h1]) rfl with h | ⟨cm, st', h1, h2, h3⟩
  · exact .inl h
  · refine .inr ⟨cm, st', h1, h2, ?_⟩
    refine hI.build hact (by rw [hp]; rfl) rfl rfl rfl (by rw [hp]; rfl) h2 ?_
    rw [hC] at h3
    exact ⟨hpair, q, pfx, big, ch, h3, hd⟩

/-- Publishing the change of an update. -/
theorem commitU_full {op : UpdOp} {value : Word} {cm : Commit} (hp : s.proc a = .updB op value cm) :
    ∃ b tl st', s.st.commit cm = (b, tl, st') ∧
      (b = false → op.kind = .nodeLeafUpdate256 ∧ s.st.load op.leafPtr ≠ op.currentLeaf) ∧
      ∃ t' seen', ((∀ b x, seen' b x ↔ seen b x ∨ x = t') ∧ st'.nblocks = s.st.nblocks) ∧
        Inv env (s.set a st' (.upd (.tail b tl))) (σ.next (if b then .put op.key (trunc55 value) else .none)) t' seen' ∧
        ((t.Dense → t'.Dense) ∧ KeepBig t t') ∧ tl.unl = op.unl ∧ Swap s.st st' t t' op.unl.list ∧
        (b = true → ∀ x, t.cover x + cm.priv x ≤ t'.cover x + tl.seg x) := by
  have hact : (s.proc a).active = true := by rw [hp]; rfl
  have htl : (s.proc a).tail? = none := by rw [hp]; rfl
  have hcm : (s.proc a).cm? = some cm := by rw [hp]; rfl
  have hu : (s.proc a).unl = op.unl := by rw [hp]; rfl
  have hP := hI.proc a
  rw [hp] at hP
  obtain ⟨hpair, q, pfx, big, ch, hb, hd⟩ := hP
  have hdata : ∃ C, UBlt env.P s.st t op value cm (pathOf C) pfx big ch ∧ UFactAt env.P t op C pfx big ch := by
    rcases hd with ⟨h2, h3⟩ | ⟨h2, h3, h4⟩
    · refine ⟨[], ?_, root_factAt h2 h3 _ _ _ _⟩
      unfold UBlt at hb ⊢
      unfold UKind.isRoot at h2
      split at h2 <;> first | (cases h2; done) | (rename_i hkind; simp only [hkind] at hb ⊢; exact hb)
    · obtain ⟨C, h5, h6⟩ := upd_factAt hI h3 h4
      exact ⟨C, by rw [h5]; exact hb, h6⟩
  obtain ⟨C, hb', hf⟩ := hdata
  have hroot : t.isNode = false → (s.proc a).unl = .root := by
    intro hn
    rw [hu]
    rcases hd with ⟨h2, h3⟩ | ⟨h2, h3, h4⟩
    · unfold UKind.isRoot at h2
      unfold UpdOp.unl
      split at h2 <;> simp_all
    · rw [h3.at'.isNode] at hn; cases hn
  have h3 : ∀ u, u = op.unl → ∀ c n p, u = .three c n p → n ≠ 0 := by
    rintro u rfl c n p e
    unfold UpdOp.unl at e
    split at e <;> cases e
  have hN : (fun x => (s.pend x - cm.priv x) + cm.priv x) = s.pend := by
    funext x
    have h2 := Sys.priv_le hI.mem.off a x
    have hpv : (s.proc a).priv x = cm.priv x := by unfold Proc.priv; rw [hcm]
    omega
  have hout := cmtU_spec (N0 := fun x => s.pend x - cm.priv x) env.keysOK (by rw [hN]; exact hI.mem.core) hpair hf hb'
  have htgt : ∀ x, cm.ptr = .slot x → InLocked t (s.proc a).unl.list x := by
    intro x hx
    rw [hu]; exact hb.target hd hx
  have hnb : (s.st.commit cm).2.2.nblocks = s.st.nblocks := commit_nblocks _ _
  rcases hout with ⟨st', t', tl, h, hpub, h1, h2, h4, h5, hdn, hkp⟩ | ⟨hk, h⟩
  · refine ⟨true, tl, st', h, by simp, t', fun b t1 => seen b t1 ∨ t1 = t', ⟨fun _ _ => .rfl, by rw [h] at hnb; exact hnb⟩, ?_, hdn, h1, hpub.swap hI.mem.core,
      fun _ => hkp⟩
    rw [hN] at hpub
    refine hI.commit hact htl hcm rfl rfl rfl (by rw [hu]; exact h1) (by rw [hu]; exact hpub) (by rw [h])
      (fun x hx _ => .inl (htgt x hx)) (hI.mem.content.upd1 h4) ?_ ?_ (hI.hkeys.upd1 h4 h5) (fun hn => .inl (hroot hn)) ⟨h2, h3 _ h1⟩
    · intro b M hM; exact List.mem_cons_of_mem _ hM
    · intro b hb; exact ⟨_, List.mem_cons_self, hI.mem.content.upd1 h4⟩
  · refine ⟨false, _, _, h, fun _ => hk, t, fun b t1 => seen b t1 ∨ t1 = t, ⟨fun _ _ => .rfl, rfl⟩, ?_, ⟨id, .refl _⟩, rfl,
      ⟨rfl, fun _ _ _ => rfl, .refl _ _, .refl _⟩, by simp⟩
    refine hI.commit hact htl hcm rfl rfl rfl (by rw [hu]) (keep_pub hI.mem.core ?_) (by rw [h])
      (fun x hx _ => .inl (htgt x hx)) hI.mem.content (fun _ _ h => h) ?_
      (by simpa using hI.hkeys) (fun _ => .inr rfl) ⟨by simp, h3 _ rfl⟩
    · intro x
      show _ + 0 ≤ _
      omega
    · intro b hb; exact hI.mem.win b t hb (hI.mem.now b hb)

/-- Publishing the change of an update. -/
theorem commitU_inv {op : UpdOp} {value : Word} {cm : Commit} (hp : s.proc a = .updB op value cm) :
    ∃ b tl st', s.st.commit cm = (b, tl, st') ∧
      (b = false → op.kind = .nodeLeafUpdate256 ∧ s.st.load op.leafPtr ≠ op.currentLeaf) ∧
      ∃ t' seen', ((∀ b x, seen' b x ↔ seen b x ∨ x = t') ∧ st'.nblocks = s.st.nblocks) ∧
        Inv env (s.set a st' (.upd (.tail b tl))) (σ.next (if b then .put op.key (trunc55 value) else .none)) t' seen' ∧
        (t.Dense → t'.Dense) ∧ KeepBig t t' := by
  obtain ⟨b, tl, st', h1, h2, t', seen', h3, h4, h5, _⟩ := commitU_full hI hp
  exact ⟨b, tl, st', h1, h2, t', seen', h3, h4, h5⟩

omit hI in
theorem Sys.set_set (s : Sys) (a : Nat) (st st' : St) (p p' : Proc) : (s.set a st p).set a st' p' = s.set a st' p' := by
  unfold Sys.set
  congr 1
  funext b
  by_cases hb : b = a
  · subst hb; simp
  · simp [upd_of_ne _ _ hb]

/-- The first part of `Finalize` of an update: it fails because no memory is left, or the invariant holds afterwards. -/
theorem publishU_inv {found : Bool} {op : UpdOp} {value : Word} (hp : s.proc a = .upd (.held found op))
    (hall : env.Allowed s (.publish a value)) :
    publishU s.st a op (env.fetch op.value) (decide (env.fetch op.value = op.key)) value = .error .noBlocks ∨
    ∃ b tl st', publishU s.st a op (env.fetch op.value) (decide (env.fetch op.value = op.key)) value = .ok (b, tl, st') ∧
      (b = false → op.kind = .nodeLeafUpdate256 ∧ s.st.load op.leafPtr ≠ op.currentLeaf) ∧
      ∃ t' seen', ((∀ b x, seen' b x ↔ seen b x ∨ x = t') ∧ s.st.nblocks ≤ st'.nblocks) ∧ Inv env (s.set a st' (.upd (.tail b tl))) (σ.next (if b then .put op.key (trunc55 value) else .none)) t' seen' ∧
        (t.Dense → t'.Dense) ∧ KeepBig t t' := by
  rw [publishU_eq]
  rcases buildU_inv hI hp hall with h | ⟨cm, st1, h1, h2, h3⟩
  · left; rw [h]; rfl
  · right
    rw [h1]
    obtain ⟨b, tl, st', g1, g2, t', seen', ⟨g3, g4⟩, g5, g6⟩ := commitU_inv h3 (a := a) (op := op) (value := value) (cm := cm) (Sys.set_self _ _ _ _)
    rw [Sys.set_st] at g1 g2 g4
    rw [Sys.set_set] at g5
    refine ⟨b, tl, st', congrArg Except.ok g1, ?_, t', seen', ⟨g3, by rw [g4]; exact h2.nblocks⟩, g5, g6⟩
    intro hb
    obtain ⟨e1, e2⟩ := g2 hb
    refine ⟨e1, ?_⟩
    obtain ⟨_, hf, _⟩ := held_upd hI hp
    unfold UFact at hf
    rw [e1] at hf
    obtain ⟨C, pfx, ch, lk, lv, hl⟩ := hf
    have hat : At t (pathOf C) (.node op.node pfx true ch) := by rw [hl.node.tree]; exact At_plug C _
    have hr := childSlot_range (a := op.node) (pfx := pfx) (big := true) (ch := ch) (c := op.k) (.inl rfl)
    have hcov := hat.cover_node (x := childSlot op.node pfx true ch op.k) (by omega) hr.2
    rw [hl.ptr] at e2 ⊢
    have : st1.mem (childSlot op.node pfx true ch op.k) = s.st.mem (childSlot op.node pfx true ch op.k) := by
      refine h2.mem _ ?_
      have h5 := hI.mem.core.sep (childSlot op.node pfx true ch op.k)
      have h6 := freeP_le (availNow s.st) s.st (childSlot op.node pfx true ch op.k)
      omega
    simpa [St.load, this] using e2

/-! ## Deletes -/

/-- Building the new node of a delete. -/
theorem buildD_inv {cur : DelCur} {value : Word} (hp : s.proc a = .del (.held cur)) (hall : env.Allowed s (.build a value)) :
    buildD s.st a cur.op = .error .noBlocks ∨
    ∃ cm st', buildD s.st a cur.op = .ok (cm, st') ∧ AllocEff a s.st st' s.pend (fun x => s.pend x + cm.priv x) ∧
      Inv env (s.set a st' (.delB cur cm)) σ t seen := by
  have hact : (s.proc a).active = true := by rw [hp]; rfl
  have ha := hI.lt_of_active hact
  have hP := hI.proc a
  rw [hp] at hP
  simp only [Env.Allowed, hp] at hall
  obtain ⟨_, hk⟩ := hP
  have hdata : ∃ pfx ch big2 kids C, DFactAt t cur.op cur.key C pfx ch big2 kids ∧ ∀ st' cm, DBlt st' cur.op cm pfx ch big2 kids →
      PInvDB env (s.set a st' (.delB cur cm)) t (fun t1 => seen a t1) cur cm := by
    rcases hk with ⟨h1, h2⟩ | ⟨h1, q, pfx, ch, h2, h3⟩ | ⟨h1, q, pfx, k, k2, lk, lv, pfx2, big2, kids, h2, h3, h4, h5, h6⟩ | ⟨h1, h2, h3, h4⟩
    · refine ⟨[], fun _ => .empty, false, fun _ => .empty, [], ?_, fun st' cm hb => ⟨hall, [], _, _, _, _, hb, .inl ⟨h1, h2⟩⟩⟩
      unfold DFact at h2
      unfold DFactAt
      rw [h1] at h2 ⊢
      exact h2
    · obtain ⟨C, h4, h5⟩ := del_factAt hI h2 h3 false (fun _ => .empty)
      exact ⟨pfx, ch, false, _, C, h5, fun st' cm hb => ⟨hall, q, _, _, _, _, hb, .inr (.inl ⟨h1, h2, h3⟩)⟩⟩
    · obtain ⟨C, h7, h8⟩ := merge_factAt hI (key := cur.key) h1 h2 h3 h4 h5 h6
      exact ⟨pfx, _, big2, kids, C, h8, fun st' cm hb =>
        ⟨hall, q, _, _, _, _, hb, .inr (.inr (.inl ⟨h1, k, k2, lk, lv, pfx2, h2, h3, h4, h5, h6⟩))⟩⟩
    · refine ⟨[], fun _ => .empty, false, fun _ => .empty, [], ?_, fun st' cm hb =>
        ⟨hall, [], _, _, _, _, hb, .inr (.inr (.inr ⟨h1, h2, h3, h4⟩))⟩⟩
      unfold DFactAt
      rw [h1]
      exact ⟨h2, h3⟩
  obtain ⟨pfx, ch, big2, kids, C, hf, hd⟩ := hdata
  rcases bldD_spec hI.mem.core ha hf with h | ⟨cm, st', h1, h2, h3⟩
  · exact .inl h
  · exact .inr ⟨cm, st', h1, h2, hI.build hact (by rw [hp]; rfl) rfl rfl rfl (by rw [hp]; rfl) h2 (hd _ _ h3)⟩

/-- Publishing the change of a delete. -/
theorem commitD_full {cur : DelCur} {cm : Commit} (hp : s.proc a = .delB cur cm) (hcalm : Calm s (.commit a)) :
    ∃ b tl st', s.st.commit cm = (b, tl, st') ∧ (b = false → cur.op.kind = .deleteLeaf256 ∧ s.st.load cur.op.leafPtr ≠ cur.op.raw) ∧
      (b = true → (∃ v, t.Has cur.key v) ∧ (cur.op.kind = .deleteLeaf256 → ∃ q n pfx ch, At t q (.node n pfx true ch))) ∧
      ∃ t' seen', ((∀ b x, seen' b x ↔ seen b x ∨ x = t') ∧ st'.nblocks = s.st.nblocks) ∧
        Inv env (s.set a st' (.del (.tail b tl))) (σ.next (if b then .del cur.key else .none)) t' seen' ∧
        (KeepBig t t' ∧ KeepBig t' t) ∧ tl.unl = cur.op.unl ∧ Swap s.st st' t t' cur.op.unl.list ∧
        (b = true → cur.op.kind ≠ .replaceNodeWithNode → ∀ x, t.cover x + cm.priv x ≤ t'.cover x + tl.seg x) := by
  have hact : (s.proc a).active = true := by rw [hp]; rfl
  have htl : (s.proc a).tail? = none := by rw [hp]; rfl
  have hcm : (s.proc a).cm? = some cm := by rw [hp]; rfl
  have hu : (s.proc a).unl = cur.op.unl := by rw [hp]; rfl
  have hPB := hI.proc a
  rw [hp] at hPB
  have hPB : PInvDB env s t (seen a) cur cm := hPB
  have hPB' := hPB
  obtain ⟨hall, q, pfx, ch, big2, kids, hb, hd⟩ := hPB'
  simp only [Calm, hp] at hcalm
  have hm : ∀ lk lv, env.P lk lv → trunc55 lv = cur.op.value → lk = cur.key := by
    rintro lk lv ⟨_, h1, h2⟩ h3
    rw [← hall, ← h3, h2, h1]
  have hnz : ∀ {q n pfx big ch}, At t q (.node n pfx big ch) → n ≠ 0 := by
    intro q n pfx big ch h
    have := (h.inBlocks hI.mem.core.inb).1.1
    omega
  have hroot : t.isNode = false → cur.op.unl = .root ∨ cur.op.kind = .deleteLeaf256 := by
    intro hn
    rcases hd with ⟨h1, h2⟩ | ⟨h1, h2, h3⟩ | ⟨h1, k, k2, lk, lv, pfx2, h2, h3, h4, h5, h6⟩ | ⟨h1, _⟩
    · exact .inl (by simp [DelOp.unl, h1])
    · rw [h2.at'.isNode] at hn; cases hn
    · rw [h2.at'.isNode] at hn; cases hn
    · exact .inr h1
  have hthree : ∀ c n p, cur.op.unl = .three c n p → n ≠ 0 := by
    intro c n p e
    rcases hd with ⟨h1, h2⟩ | ⟨h1, h2, h3⟩ | ⟨h1, k, k2, lk, lv, pfx2, h2, h3, h4, h5, h6⟩ | ⟨h1, _⟩
    · simp [DelOp.unl, h1] at e
    · rcases h1 with h1 | h1 <;> simp [DelOp.unl, h1] at e
    · simp only [DelOp.unl, h1, Unlock.three.injEq] at e
      rw [← e.2.1]
      exact hnz h2.at'
    · simp [DelOp.unl, h1] at e
  have hdata : ∃ C ch, DBlt s.st cur.op cm pfx ch big2 kids ∧ DFactAt t cur.op cur.key C pfx ch big2 kids := by
    rcases hd with ⟨h1, h2⟩ | ⟨h1, h2, h3⟩ | ⟨h1, k, k2, lk, lv, pfx2, h2, h3, h4, h5, h6⟩ | ⟨h1, h2, h3, h4⟩
    · refine ⟨[], ch, hb, ?_⟩
      unfold DFact at h2
      unfold DFactAt
      rw [h1] at h2 ⊢
      exact h2
    · obtain ⟨C, h4, h5⟩ := del_factAt hI h2 h3 big2 kids
      exact ⟨C, ch, hb, h5⟩
    · obtain ⟨C, h7, h8⟩ := merge_factAt hI (key := cur.key) h1 h2 h3 h4 h5 h6
      refine ⟨C, _, ?_, h8⟩
      unfold DBlt at hb ⊢
      simp only [h1] at hb ⊢
      exact hb
    · refine ⟨[], ch, hb, ?_⟩
      unfold DFactAt
      rw [h1]
      exact ⟨h2, h3⟩
  obtain ⟨C, ch', hb', hf⟩ := hdata
  have hN : (fun x => (s.pend x - cm.priv x) + cm.priv x) = s.pend := by
    funext x
    have h2 := Sys.priv_le hI.mem.off a x
    have hpv : (s.proc a).priv x = cm.priv x := by unfold Proc.priv; rw [hcm]
    omega
  have hnb : (s.st.commit cm).2.2.nblocks = s.st.nblocks := commit_nblocks _ _
  by_cases hfail : cur.op.kind = .deleteLeaf256 ∧ s.st.load cur.op.leafPtr ≠ cur.op.raw
  · have hul : cur.op.unl = .none := by simp [DelOp.unl, hfail.1]
    have h : s.st.commit cm = (false, {}, s.st) := by
      unfold DBlt at hb
      rw [hfail.1] at hb
      have hb : cm = _ := hb
      rw [hb]
      simp [St.commit, St.cas, hfail.2]
    refine ⟨false, {}, s.st, h, fun _ => hfail, by simp, t, fun b t1 => seen b t1 ∨ t1 = t, ⟨fun _ _ => .rfl, rfl⟩, ?_, ⟨.refl _, .refl _⟩, hul.symm,
      ⟨rfl, fun _ _ _ => rfl, .refl _ _, .refl _⟩, by simp⟩
    refine hI.commit hact htl hcm rfl rfl rfl (by rw [hu, hul]) (keep_pub hI.mem.core ?_) (by rw [h])
      (fun x hx hne => absurd rfl hne) hI.mem.content (fun _ _ h => h) ?_
      (by simpa using hI.hkeys) (fun _ => .inr rfl) ⟨by simp, by simp⟩
    · intro x
      show _ + 0 ≤ _
      omega
    · intro b hb; exact hI.mem.win b t hb (hI.mem.now b hb)
  · have h256 : cur.op.kind = .deleteLeaf256 → ∃ q node pfx ch k, At t q (.node node pfx true ch) ∧
        cur.op.leafPtr = .slot (childSlot node pfx true ch k) := by
      intro hk
      have hl : s.st.load cur.op.leafPtr = cur.op.raw := Decidable.not_not.1 fun h => hfail ⟨hk, h⟩
      obtain ⟨p, e1, e2, _⟩ := hcalm hk hl
      rcases hd with ⟨h1, _⟩ | ⟨h1, _⟩ | ⟨h1, _⟩ | ⟨_, _, _, t0, q, n, pfx, ch, k, h2, h3, h4⟩
      · rw [hk] at h1; cases h1
      · rw [hk] at h1; rcases h1 with h1 | h1 <;> cases h1
      · rw [hk] at h1; cases h1
      · rcases hI.mem.trail a t0 q n pfx true ch hact h2 h3 with ⟨ch', g1, g2⟩ | ⟨t1, ch', g1, g2, g3, g4, g5⟩
        · exact ⟨q, n, pfx, ch', k, g1, h4⟩
        · exfalso
          obtain ⟨q', n', pfx', big', ch2, c, i1, i2, i3⟩ := (liveSlot_iff hI.mem.core).1 e2
          have r1 := childSlot_range (a := n) (pfx := pfx) (big := true) (ch := ch) (c := k) (.inl rfl)
          have r2 := childSlot_range (a := n') (pfx := pfx') i2
          have e3 : childSlot n pfx true ch k = p := by
            rw [h4] at e1
            exact Ptr.slot.inj e1
          rw [← i3] at r2
          rw [e3] at r1
          have z1 := g5 p (by omega) r1.2
          have z2 := i1.cover_node (x := p) (by omega) r2.2
          omega
    have htgt : ∀ x, cm.ptr = .slot x → InLocked t (s.proc a).unl.list x ∨ ¬ s.Copied x := by
      intro x hx
      by_cases hk : cur.op.kind = .deleteLeaf256
      · right
        have hl : s.st.load cur.op.leafPtr = cur.op.raw := Decidable.not_not.1 fun h => hfail ⟨hk, h⟩
        obtain ⟨p, e1, _, e3⟩ := hcalm hk hl
        have e4 : cm.ptr = cur.op.leafPtr := by
          unfold DBlt at hb
          rw [hk] at hb
          have hb : cm = _ := hb
          rw [hb]
        rw [e4, e1] at hx
        rw [← Ptr.slot.inj hx]; exact e3
      · left
        rw [hu]
        exact hPB.target hk hx
    rcases cmtD_spec (N0 := fun x => s.pend x - cm.priv x) env.keysOK (by rw [hN]; exact hI.mem.core) hf hm hb' h256 with
      ⟨st', t', tl, h, hpub, h1, h2, h4, h5, h6, hkp⟩ | ⟨h, _⟩
    · refine ⟨true, tl, st', h, by simp, fun _ => ⟨h6.1, fun h => ?_⟩, t', fun b t1 => seen b t1 ∨ t1 = t', ⟨fun _ _ => .rfl, by rw [h] at hnb; exact hnb⟩, ?_, h6.2, h1,
        hpub.swap hI.mem.core, fun _ => hkp⟩
      · obtain ⟨q, n, pfx, ch, _, g, _⟩ := h256 h
        exact ⟨q, n, pfx, ch, g⟩
      rw [hN] at hpub
      refine hI.commit hact htl hcm rfl rfl rfl (by rw [hu]; exact h1) (by rw [hu]; exact hpub) (by rw [h])
        (fun x hx _ => htgt x hx) (hI.mem.content.del1 h4) ?_ ?_ ?_ ?_ ⟨h2, by rw [h1]; exact hthree⟩
      · intro b M hM; exact List.mem_cons_of_mem _ hM
      · intro b hb; exact ⟨_, List.mem_cons_self, hI.mem.content.del1 h4⟩
      · rw [h5]; exact hI.hkeys.del1 h4 h6.1
      · intro hn
        rcases hroot hn with g | g
        · exact .inl (by rw [hu]; exact g)
        · obtain ⟨_, _, _, _, _, g1, _⟩ := h256 g
          rw [g1.isNode] at hn; cases hn
    · exact absurd h hfail

/-- Publishing the change of a delete. -/
theorem commitD_inv {cur : DelCur} {cm : Commit} (hp : s.proc a = .delB cur cm) (hcalm : Calm s (.commit a)) :
    ∃ b tl st', s.st.commit cm = (b, tl, st') ∧ (b = false → cur.op.kind = .deleteLeaf256 ∧ s.st.load cur.op.leafPtr ≠ cur.op.raw) ∧
      (b = true → (∃ v, t.Has cur.key v) ∧ (cur.op.kind = .deleteLeaf256 → ∃ q n pfx ch, At t q (.node n pfx true ch))) ∧
      ∃ t' seen', ((∀ b x, seen' b x ↔ seen b x ∨ x = t') ∧ st'.nblocks = s.st.nblocks) ∧
        Inv env (s.set a st' (.del (.tail b tl))) (σ.next (if b then .del cur.key else .none)) t' seen' ∧
        KeepBig t t' ∧ KeepBig t' t := by
  obtain ⟨b, tl, st', h1, h2, h3, t', seen', h4, h5, h6, _⟩ := commitD_full hI hp hcalm
  exact ⟨b, tl, st', h1, h2, h3, t', seen', h4, h5, h6⟩

/-- The first part of `Finalize` of a delete. -/
theorem publishD_inv {cur : DelCur} {value : Word} (hp : s.proc a = .del (.held cur)) (hall : env.Allowed s (.publish a value))
    (hcalm : Calm s (.publish a value)) :
    publishD s.st a cur.op = .error .noBlocks ∨
    ∃ b tl st', publishD s.st a cur.op = .ok (b, tl, st') ∧ (b = false → cur.op.kind = .deleteLeaf256 ∧ s.st.load cur.op.leafPtr ≠ cur.op.raw) ∧
      (b = true → (∃ v, t.Has cur.key v) ∧ (cur.op.kind = .deleteLeaf256 → ∃ q n pfx ch, At t q (.node n pfx true ch))) ∧
      ∃ t' seen', ((∀ b x, seen' b x ↔ seen b x ∨ x = t') ∧ s.st.nblocks ≤ st'.nblocks) ∧ Inv env (s.set a st' (.del (.tail b tl))) (σ.next (if b then .del cur.key else .none)) t' seen' ∧
        KeepBig t t' ∧ KeepBig t' t := by
  have hnf : cur.op.kind ≠ .notFound := by
    intro e
    obtain ⟨hf, _⟩ := held_del hI hp
    unfold DFact at hf
    rw [e] at hf
    exact hf
  rw [publishD_eq _ _ _ hnf]
  rcases buildD_inv hI hp (value := value) hall with h | ⟨cm, st1, h1, h2, h3⟩
  · left; rw [h]; rfl
  · right
    rw [h1]
    have h256 : cur.op.kind = .deleteLeaf256 → st1 = s.st ∧ ∀ x, (Proc.delB cur cm).copied x = 0 := by
      intro hk
      unfold buildD at h1
      simp only [hk, pure, Except.pure, Except.ok.injEq, Prod.mk.injEq] at h1
      obtain ⟨e1, e2⟩ := h1
      refine ⟨e2.symm, fun x => ?_⟩
      rw [← e1]; rfl
    have hc : Calm (s.set a st1 (.delB cur cm)) (.commit a) := by
      simp only [Calm, hp] at hcalm
      simp only [Calm, Sys.set_self, Sys.set_st]
      intro hk hl
      obtain ⟨e1, e2⟩ := h256 hk
      rw [e1] at hl ⊢
      obtain ⟨p, g1, g2, g3⟩ := hcalm hk hl
      refine ⟨p, g1, g2, ?_⟩
      rintro ⟨b, hb⟩
      by_cases hba : b = a
      · subst hba
        rw [Sys.set_self, e2] at hb
        omega
      · rw [Sys.set_other _ _ _ _ hba] at hb
        exact g3 ⟨b, hb⟩
    obtain ⟨b, tl, st', g1, g2, g3, t', seen', ⟨g4, g5⟩, g6, g7⟩ := commitD_inv h3 (a := a) (cur := cur) (cm := cm) (Sys.set_self _ _ _ _) hc
    rw [Sys.set_st] at g1 g2 g5
    rw [Sys.set_set] at g6
    refine ⟨b, tl, st', congrArg Except.ok g1, ?_, g3, t', seen', ⟨g4, by rw [g5]; exact h2.nblocks⟩, g6, g7⟩
    intro hb
    obtain ⟨e1, e2⟩ := g2 hb
    rw [(h256 e1).1] at e2
    exact ⟨e1, e2⟩

end

end Radix
