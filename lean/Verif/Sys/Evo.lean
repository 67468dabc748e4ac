import Verif.Sys.Built
/-!
# What the other operations keep when one takes a step
-/
namespace Radix
open T

theorem half_le {x y : Int} (h : x ≤ y) : x / 2 ≤ y / 2 := by omega

/-- A step of one operation, from tree `t` to `t'`; `L`: the nodes whose locks it holds while it publishes a change. -/
structure Evo (s s' : Sys) (t t' : T) (L : List Nat) : Prop where
  gens : ∀ n, s.st.gen n ≤ s'.st.gen n
  window : ∀ n, s'.st.gen n / 2 = s.st.gen n / 2 → s.Window n → s'.Window n
  stable : Stable t t' (fun n => n ∈ L)
  pub : ∀ n ∈ L, s'.Window n
  baNext : s.st.baNext ≤ s'.st.baNext
  nblocks : s.st.nblocks ≤ s'.st.nblocks

section
variable {s s' : Sys} {t t' : T} {L : List Nat} (he : Evo s s' t t' L)
include he

theorem Evo.fresh {n : Nat} {g : Int} (hg : g / 2 ≤ s.st.gen n / 2) (h : Fresh s' n g) : Fresh s n g := by
  have h1 := he.gens n
  have h2 := h.1
  exact ⟨by omega, fun hw => h.2 (he.window n (by omega) hw)⟩

theorem Evo.not_fresh {n : Nat} {g : Int} (h : Fresh s' n g) : n ∉ L := fun hn => h.2 (he.pub n hn)

theorem Evo.node {q n pfx big ch} (hat : At t q (.node n pfx big ch)) (hn : n ∉ L) :
    ∃ ch', At t' q (.node n pfx big ch') ∧ (∀ c, TopRel big (ch c) (ch' c)) ∧ SameKids big ch ch' ∧
      ∀ b, wordOf b (.node n pfx big ch') = wordOf b (.node n pfx big ch) := by
  obtain ⟨ch', h1, h2⟩ := he.stable q n pfx big ch hat hn
  have h3 := TopRel.sameKids h2
  exact ⟨ch', h1, h2, h3, fun b => by simp only [wordOf, h3.cnt]⟩

theorem Evo.hole {parent nodePtr raw q} (h : HoleC t parent nodePtr raw q) (hp : parent ∉ L) : HoleC t' parent nodePtr raw q := by
  obtain ⟨q0, pfx, big, ch, c, h1, h2, h3, h4, h5⟩ := h
  obtain ⟨ch', g1, g2, g3, g4⟩ := he.node h1 hp
  have := g2 c
  cases hc : ch c with
  | empty => simp [hc] at h4
  | leaf => simp [hc] at h4
  | node n' pfx' b' kids =>
    rw [hc] at this
    obtain ⟨kids', e1, e2⟩ := this.of_node
    refine ⟨q0, pfx, big, ch', c, g1, h2, by rw [g3.childSlot]; exact h3, by rw [e1]; rfl, ?_⟩
    rw [h5, e1, hc]
    simp only [wordOf, e2]

theorem Evo.up {p q} (h : Up s t p q) : Up s' t' p q := by
  rcases h with h | ⟨h1, h2, h3, h4, h5⟩
  · exact .inl h
  · refine .inr ⟨h1, h2, Nat.lt_of_lt_of_le h3 he.baNext, Int.le_trans h4 (half_le (he.gens _)), ?_⟩
    intro hf
    exact he.hole (h5 (he.fresh h4 hf)) (he.not_fresh hf)

omit he in
theorem LiveRef.addr {P N raw q} (hc : CoreN P s.st t N) (h : LiveRef t raw q) :
    ∃ b pfx big ch, At t q (.node (nodeAddr raw) pfx big ch) ∧ raw = wordOf b (.node (nodeAddr raw) pfx big ch) := by
  obtain ⟨b, n, pfx, big, ch, h1, h2⟩ := h
  have : nodeAddr raw = n := by rw [h2]; exact nodeAddr_wordOf hc.bn (h1.inBlocks hc.inb)
  rw [this]
  exact ⟨b, pfx, big, ch, h1, h2⟩

theorem Evo.live {P N raw q} (hc : CoreN P s.st t N) (h : LiveRef t raw q) (hn : nodeAddr raw ∉ L) : LiveRef t' raw q := by
  obtain ⟨b, pfx, big, ch, h1, h2⟩ := h.addr hc
  obtain ⟨ch', g1, _, _, g4⟩ := he.node h1 hn
  exact ⟨b, _, pfx, big, ch', g1, by rw [g4]; exact h2⟩

variable {S S' : T → Prop} (hS : ∀ t, S t → S' t)
include hS

omit he in
theorem SeenRef.mono {raw q} (h : SeenRef S raw q) : SeenRef S' raw q := by
  obtain ⟨t, h1, h2⟩ := h
  exact ⟨t, hS t h1, h2⟩

theorem Evo.w1 {p q} (h : W1 s t S p q) : W1 s' t' S' p q := ⟨SeenRef.mono hS h.ref, he.up h.up⟩

theorem Evo.w2 {p q} (h : W2 s t S p q) : W2 s' t' S' p q :=
  { he.w1 hS h.toW1 with node := h.node, ng := Int.le_trans h.ng (half_le (he.gens _)), le := h.le }

theorem Evo.w3 {P N p q} (hc : CoreN P s.st t N) (h : W3 s t S p q) : W3 s' t' S' p q :=
  { he.w2 hS h.toW2 with
    live0 := fun hp hf => he.live hc (h.live0 hp (he.fresh h.ng hf)) (by rw [← h.node]; exact he.not_fresh hf) }

theorem Evo.w4 {P N p q} (hc : CoreN P s.st t N) (h : W4 s t S p q) : W4 s' t' S' p q :=
  { he.w2 hS h.toW2 with
    live := fun hf => he.live hc (h.live (he.fresh h.ng hf)) (by rw [← h.node]; exact he.not_fresh hf)
    eq := h.eq }

omit hS in
theorem Evo.uknow' {env op q pfx big ch} (h : UKnow env t op q pfx big ch) (hn : op.node ∉ L) :
    ∃ ch', UKnow env t' op q pfx big ch' ∧ ∀ c, TopRel big (ch c) (ch' c) := by
  obtain ⟨ch', g1, g2, g3, g4⟩ := he.node h.at' hn
  refine ⟨ch', ⟨g1, ?_, by rw [g3.cnt]; exact h.count, h.pre, h.slots, h.data, ?_⟩, g2⟩
  · obtain ⟨b, hb⟩ := h.raw
    exact ⟨b, by rw [g4]; exact hb⟩
  · rcases h.kind with hk | ⟨hd, hk⟩
    · exact .inl hk
    · refine .inr ⟨hd, ?_⟩
      rcases hk with ⟨k1, k2, k3, k4⟩ | ⟨k1, k2, k3, k4⟩ | ⟨k1, lk, lv, k2, k3, k4, k5, k6, k7⟩
      · refine .inl ⟨k1, k2, ?_, ?_⟩
        · have := g2 op.k
          rw [k3] at this
          exact this.of_empty
        · rw [k2] at g3
          rw [g3.childSlot]; exact k4
      · refine .inr (.inl ⟨k1, k2, ?_, ?_⟩)
        · have := g2 op.k
          rw [k3] at this
          exact this.of_empty
        · rw [k2] at g3
          rw [g3.present]; exact k4
      · refine .inr (.inr ⟨k1, lk, lv, k2, k3, k4, k5, ?_, by rw [g3.childSlot]; exact k7⟩)
        have := g2 op.k
        rcases k6 with k6 | ⟨k6, k6'⟩
        · rw [k6] at this
          exact this.of_leaf
        · rw [k6'] at this
          exact .inr ⟨k6, this.of_empty⟩

omit hS in
theorem Evo.uknow {env op q pfx big ch} (h : UKnow env t op q pfx big ch) (hn : op.node ∉ L) : ∃ ch', UKnow env t' op q pfx big ch' := by
  obtain ⟨ch', g, _⟩ := he.uknow' h hn
  exact ⟨ch', g⟩

omit hS in
theorem Evo.dknow' {op key q pfx ch} (h : DKnow t op key q pfx ch) (hn : op.node ∉ L) :
    ∃ ch', DKnow t' op key q pfx ch' ∧ ∀ c, TopRel false (ch c) (ch' c) := by
  obtain ⟨ch', g1, g2, g3, g4⟩ := he.node h.at' hn
  have gl : ∀ k lk lv, ch k = .leaf lk lv → ch' k = .leaf lk lv := by
    intro k lk lv hk
    have := g2 k
    rw [hk] at this
    exact this.of_leaf.resolve_right (by simp)
  refine ⟨ch', ⟨g1, ?_, h.slots, ?_⟩, g2⟩
  · obtain ⟨b, hb⟩ := h.raw
    exact ⟨b, by rw [g4]; exact hb⟩
  · rcases h.kind with ⟨k1, k, lk, lv, k2, k3⟩ | ⟨k1, k, k2, lk, lv, lk2, lv2, k3, k4, k5⟩
    · exact .inl ⟨k1, k, lk, lv, gl _ _ _ k2, by rw [g3.present]; exact k3⟩
    · refine .inr ⟨k1, k, k2, lk, lv, lk2, lv2, ?_, k4, k5⟩
      funext c
      have h2 := g2 c
      rw [k3] at h2 gl
      by_cases hc : c = k
      · subst hc
        rw [ch2_fst k4] at *
        exact gl c lk lv (ch2_fst k4)
      · by_cases hc2 : c = k2
        · subst hc2
          rw [ch2_snd]
          exact gl c lk2 lv2 ch2_snd
        · rw [ch2_other hc hc2] at h2 ⊢
          exact h2.of_empty

omit hS in
theorem Evo.dknow {op key q pfx ch} (h : DKnow t op key q pfx ch) (hn : op.node ∉ L) : ∃ ch', DKnow t' op key q pfx ch' := by
  obtain ⟨ch', g, _⟩ := he.dknow' h hn
  exact ⟨ch', g⟩

omit hS in
theorem Evo.dmerge {op q pfx k k2 lk lv pfx2 big2 kids} (h : DMerge t op q pfx k k2 lk lv pfx2 big2 kids) (hn : op.node ∉ L) :
    ∃ kids', DMerge t' op q pfx k k2 lk lv pfx2 big2 kids' ∧
      ∀ b, wordOf b (.node op.child pfx2 big2 kids') = wordOf b (.node op.child pfx2 big2 kids) := by
  obtain ⟨ch', g1, g2, g3, g4⟩ := he.node h.at' hn
  have e1 : ch' k = .leaf lk lv := by
    have := g2 k
    rw [ch2_fst h.ne] at this
    exact this.of_leaf.resolve_right (by simp)
  have e2 : ∃ kids', ch' k2 = .node op.child pfx2 big2 kids' ∧ cnt big2 kids' = cnt big2 kids := by
    have := g2 k2
    rw [ch2_snd] at this
    exact this.of_node
  obtain ⟨kids', e2, e3⟩ := e2
  have e : ch' = ch2 k (.leaf lk lv) k2 (.node op.child pfx2 big2 kids') := by
    funext c
    have h2 := g2 c
    by_cases hc : c = k
    · subst hc
      rw [ch2_fst h.ne]; exact e1
    · by_cases hc2 : c = k2
      · subst hc2
        rw [ch2_snd]; exact e2
      · rw [ch2_other hc hc2] at h2 ⊢
        exact h2.of_empty
  rw [e] at g1 g4
  refine ⟨kids', ⟨g1, ?_, h.ne, h.value, by rw [e3]; exact h.count⟩, fun b => by simp only [wordOf, e3]⟩
  obtain ⟨b, hb⟩ := h.raw
  exact ⟨b, by rw [g4]; exact hb⟩

omit he in
theorem Trk.mono {key q} (h : Trk S key q) : Trk S' key q := fun h' => h fun t ht => h' t (hS t ht)

omit he in
theorem Cand.mono {v} (h : Cand S v) : Cand S' v := by
  obtain ⟨t, lk, lv, h1, h2⟩ := h
  exact ⟨t, lk, lv, hS t h1, h2⟩

omit he in
theorem CandK.mono {key v} (h : CandK S key v) : CandK S' key v := by
  obtain ⟨t, lk, lv, h1, h2, h3, h4⟩ := h
  exact ⟨t, lk, lv, hS t h1, h2, h3, fun h' => h4 fun t ht => h' t (hS t ht)⟩

omit he in
theorem Absent.mono {key} (h : Absent S key) : Absent S' key := by
  obtain ⟨t, h1, h2⟩ := h
  exact ⟨t, hS t h1, h2⟩

omit he in
theorem DKey.mono {cur q} (h : DKey S cur q) : DKey S' cur q :=
  ⟨h.ne, h.depth, Trk.mono hS h.trk, h.top, SeenRef.mono hS h.root⟩

omit he in
theorem RIn.mono {key q n pfx big ch data k depth} (h : RIn S key q n pfx big ch data k depth) :
    RIn S' key q n pfx big ch data k depth := by
  obtain ⟨t, h1, h2⟩ := h.seen
  exact ⟨⟨t, hS t h1, h2⟩, h.base, h.len, h.dep, h.lt, h.byte, Trk.mono hS h.trk⟩

theorem Evo.mergeW {P N cur other plen} (hc : CoreN P s.st t N) (h : MergeW s t S cur other plen) : MergeW s' t' S' cur other plen := by
  obtain ⟨h1, h2, h3, h4, h4', q, pfx, k, k2, lk, lv, pfx2, big2, h5, h6, h7⟩ := h
  refine ⟨h1, CandK.mono hS h2, h3, h4, h4', q, pfx, k, k2, lk, lv, pfx2, big2, he.w4 hS hc h5, SeenRef.mono hS h6, ?_⟩
  intro hf
  obtain ⟨kids, g1, g2⟩ := h7 (he.fresh h5.ng hf)
  obtain ⟨kids', g3, g4⟩ := he.dmerge g1 (he.not_fresh hf)
  exact ⟨kids', g3, by rw [g4]; exact g2⟩

theorem Evo.otherW {P N cur p plen} (hc : CoreN P s.st t N) (h : OtherW s t S cur p plen) : OtherW s' t' S' cur p plen := by
  obtain ⟨h1, h2, q, pfx, k, k2, cur0, pos, w, h3, h4, h5, h6, h7, h8, ⟨t0, c1, c2, b, h9, h10⟩, h11⟩ := h
  refine ⟨CandK.mono hS h1, h2, q, pfx, k, k2, cur0, pos, w, h3, h4.mono hS, he.w4 hS hc h5, h6, h7, h8, ⟨t0, c1, c2, b, hS _ h9, h10⟩, ?_⟩
  intro hf
  obtain ⟨lk, lv, c2, g1, g2, g6, ⟨b', g7⟩, g8⟩ := h11 (he.fresh h5.ng hf)
  obtain ⟨ch', g3, g4, g5, g9⟩ := he.node g1 (he.not_fresh hf)
  have e1 : ch' k = .leaf lk lv := by
    have := g4 k
    rw [ch2_fst h6] at this
    exact this.of_leaf.resolve_right (by simp)
  have e := g5.two h6
  rw [e1] at e
  have e3 : (ch' k2).isEmpty = false := by rw [g5 rfl k2, ch2_snd]; exact g6
  rw [← e1] at e
  have e4 := g5.childSlot cur.op.node pfx k2
  rw [← g8] at e4
  rw [← g9] at g7
  rw [e1] at e
  rw [e] at g3 g7 e4
  exact ⟨lk, lv, _, g3, g2, e3, ⟨b', g7⟩, e4.symm⟩

omit hS in
theorem Evo.holdUp {p q} (h : HoldUp t p q) (hp : p.parent ≠ 0 → p.parent ∉ L) : HoldUp t' p q := by
  rcases h with h | ⟨h1, h2⟩
  · exact .inl h
  · exact .inr ⟨h1, he.hole h2 (hp h1)⟩

/-- Another operation's facts survive. -/
theorem Evo.proc {env P N} (hc : CoreN P s.st t N) (hr' : t'.Repr s'.st.mem) {p : Proc} (hkeep : Keeps s.st s'.st t p)
    (hdisj : ∀ n ∈ p.unl.list, n ∉ L)
    (hroot : p.unl = .root → t.isNode = false → t' = t) (h : PInv env s t S p) : PInv env s' t' S' p := by
  have hpar : ∀ n p', p.unl.list = lockList2 n p' → n ∉ L ∧ (p' ≠ 0 → p' ∉ L) := by
    intro n p' e
    refine ⟨hdisj n (by rw [e]; exact mem_lockList2 _ _), fun h0 => hdisj p' ?_⟩
    rw [e]
    unfold lockList2
    rw [if_neg h0]; simp
  cases p with
  | idle => trivial
  | arm e c =>
    cases c with
    | update key => exact h
    | delete key => exact h
    | lookup key => exact ⟨h.1, Nat.lt_of_lt_of_le h.2 he.nblocks⟩
    | walk => exact Nat.lt_of_lt_of_le h he.nblocks
  | upd ph =>
    cases ph with
    | start key => exact h
    | root key root => exact h
    | gen op => obtain ⟨q, h1, h2⟩ := h; exact ⟨q, h1, he.w1 hS h2⟩
    | ptr op => obtain ⟨q, h1, h2, h3⟩ := h; exact ⟨q, h1, he.w2 hS h2, h3⟩
    | par op => obtain ⟨q, h1, h2, h3⟩ := h; exact ⟨q, h1, he.w3 hS hc h2, h3⟩
    | body op => obtain ⟨q, h1, h2, h3⟩ := h; exact ⟨q, h1, he.w4 hS hc h2, h3⟩
    | lock found op =>
      obtain ⟨h1, h2, h3, h4, q, pfx, big, h5, h6⟩ := h
      refine ⟨h1, h2, h3, fun h => (h4 h).mono hS, q, pfx, big, he.w4 hS hc h5, ?_⟩
      intro hf
      obtain ⟨ch, h7⟩ := h6 (he.fresh h5.ng hf)
      exact he.uknow h7 (he.not_fresh hf)
    | held found op =>
      obtain ⟨h1, h2, h3, h4⟩ := h
      refine ⟨h1, h2, fun h => (h3 h).mono hS, ?_⟩
      rcases h4 with ⟨h4, h5⟩ | ⟨h4, q, pfx, big, ch, h5, h6⟩
      · refine .inl ⟨h4, ?_⟩
        have hr : (Proc.upd (.held found op)).unl = .root := by
          unfold UKind.isRoot at h4
          simp only [Proc.unl, UpdOp.unl]
          split at h4 <;> simp_all
        have ht : t.isNode = false := by
          unfold UKind.isRoot at h4
          unfold UFact at h5
          split at h4 <;> simp_all
          · obtain ⟨_, _, rfl, _⟩ := h5; rfl
          · obtain ⟨_, _, rfl, _⟩ := h5; rfl
        rw [hroot hr ht]
        exact h5
      · have hl : (Proc.upd (.held found op)).unl.list = lockList2 op.node op.parent := by
          unfold UKind.isRoot at h4
          simp only [Proc.unl, UpdOp.unl]
          split at h4 <;> simp_all [Unlock.list]
        obtain ⟨g1, g2⟩ := hpar _ _ hl
        obtain ⟨ch', g3⟩ := he.uknow h5 g1
        refine .inr ⟨h4, q, pfx, big, ch', g3, ?_⟩
        rcases h6 with h6 | ⟨h6, h7⟩
        · exact .inl h6
        · exact .inr ⟨h6, he.hole h7 (g2 h6)⟩
    | tail r tl => exact ⟨fun n slots e => (h.1 n slots e).mono he.baNext, h.2⟩
  | del ph =>
    cases ph with
    | start key => exact h
    | root key root => exact h
    | gen cur => obtain ⟨q, h1, h2⟩ := h; exact ⟨q, h1.mono hS, he.w1 hS h2⟩
    | ptr cur => obtain ⟨q, h1, h2⟩ := h; exact ⟨q, h1.mono hS, he.w2 hS h2⟩
    | par cur => obtain ⟨q, h1, h2⟩ := h; exact ⟨q, h1.mono hS, he.w3 hS hc h2⟩
    | body cur => obtain ⟨q, h1, h2⟩ := h; exact ⟨q, h1.mono hS, he.w4 hS hc h2⟩
    | lock cur =>
      obtain ⟨h1, h2, h3, q, pfx, h5, h6⟩ := h
      refine ⟨h1, h2.mono hS, h3, q, pfx, he.w4 hS hc h5, ?_⟩
      intro hf
      obtain ⟨ch, h7⟩ := h6 (he.fresh h5.ng hf)
      exact he.dknow h7 (he.not_fresh hf)
    | other cur p plen => exact he.otherW hS hc h
    | cgen cur p other plen => exact he.mergeW hS hc h
    | cptr cur p other plen => exact he.mergeW hS hc h
    | lock3 cur other plen => exact he.mergeW hS hc h
    | miss key => exact Absent.mono hS h
    | held cur =>
      obtain ⟨h1, h2⟩ := h
      refine ⟨h1.mono hS, ?_⟩
      rcases h2 with ⟨h2, h3⟩ | ⟨h2, q, pfx, ch, h3, h4⟩ | ⟨h2, q, pfx, k, k2, lk, lv, pfx2, big2, kids, h3, h4, h5⟩ |
        ⟨h2, h3, h4, t0, q, n, pfx, ch, k, h5, h6⟩
      · refine .inl ⟨h2, ?_⟩
        have hr : (Proc.del (.held cur)).unl = .root := by simp [Proc.unl, DelOp.unl, h2]
        have ht : t.isNode = false := by
          unfold DFact at h3
          rw [h2] at h3
          obtain ⟨_, _, rfl, _⟩ := h3
          rfl
        rw [hroot hr ht]
        exact h3
      · have hl : (Proc.del (.held cur)).unl.list = lockList2 cur.op.node cur.op.parent := by
          rcases h2 with h2 | h2 <;> simp [Proc.unl, DelOp.unl, h2, Unlock.list]
        obtain ⟨g1, g2⟩ := hpar _ _ hl
        obtain ⟨ch', g3⟩ := he.dknow h3 g1
        exact .inr (.inl ⟨h2, q, pfx, ch', g3, he.holdUp h4 g2⟩)
      · have hl : (Proc.del (.held cur)).unl.list = lockList3 cur.op.child cur.op.node cur.op.parent := by
          simp [Proc.unl, DelOp.unl, h2, Unlock.list]
        have g1 : cur.op.node ∉ L := hdisj _ (by rw [hl]; unfold lockList3; split <;> simp)
        have g2 : cur.op.parent ≠ 0 → cur.op.parent ∉ L := fun h0 => hdisj _ (by
          rw [hl]; unfold lockList3; rw [if_neg h0]; simp)
        obtain ⟨kids', g3, _⟩ := he.dmerge h3 g1
        exact .inr (.inr (.inl ⟨h2, q, pfx, k, k2, lk, lv, pfx2, big2, kids', g3, he.holdUp h4 g2, h5⟩))
      · exact .inr (.inr (.inr ⟨h2, h3, h4, t0, q, n, pfx, ch, k, hS _ h5, h6⟩))
    | tail r tl => exact ⟨fun n slots e => (h.1 n slots e).mono he.baNext, h.2⟩
  | rd ph =>
    cases ph with
    | start key => exact ⟨h.1, Nat.lt_of_lt_of_le h.2 he.nblocks⟩
    | node key raw depth =>
      obtain ⟨h1, h2, h3⟩ := h
      refine ⟨h1, Nat.lt_of_lt_of_le h2 he.nblocks, ?_⟩
      rcases h3 with ⟨h3, h4, h5⟩ | ⟨q, h3, h4, h5, h6⟩
      · exact .inl ⟨h3, h4.mono hS, h5⟩
      · exact .inr ⟨q, h3.mono hS, h4, h5, h6.mono hS⟩
    | slot key data k depth =>
      obtain ⟨h1, h2, q, n, pfx, ch, h3⟩ := h
      exact ⟨h1, Nat.lt_of_lt_of_le h2 he.nblocks, q, n, pfx, ch, h3.mono hS⟩
    | scan key data i count k depth =>
      obtain ⟨h1, h2, h3⟩ := h
      refine ⟨h1, Nat.lt_of_lt_of_le h2 he.nblocks, ?_⟩
      rcases h3 with ⟨h3, h4, h5, h6, h7⟩ | ⟨q, n, pfx, ch, h3, h4⟩
      · exact .inl ⟨h3, h4, h5, h6.mono hS, h7⟩
      · exact .inr ⟨q, n, pfx, ch, h3.mono hS, h4⟩
    | done key res => exact ⟨fun h' => (h.1 h').mono hS, fun v hv => (h.2 v hv).mono hS⟩
  | walk => exact Nat.lt_of_lt_of_le h he.nblocks
  | updB op value cm =>
    obtain ⟨h1, q, pfx, big, ch, h2, h3⟩ := h
    refine ⟨h1, ?_⟩
    have hkp : ∀ x, (0 < cm.priv x ∨ (0 < t.cover x ∧ 0 < cm.ok.seg x)) → s'.st.mem x = s.st.mem x := hkeep
    rcases h3 with ⟨h4, h5⟩ | ⟨h4, h5, h6⟩
    · have hr : (Proc.updB op value cm).unl = .root := by
        unfold UKind.isRoot at h4
        simp only [Proc.unl, UpdOp.unl]
        split at h4 <;> simp_all
      have ht : t.isNode = false := by
        unfold UKind.isRoot at h4
        unfold UFact at h5
        split at h4 <;> simp_all
        · obtain ⟨_, _, rfl, _⟩ := h5; rfl
        · obtain ⟨_, _, rfl, _⟩ := h5; rfl
      have e := hroot hr ht
      refine ⟨q, pfx, big, ch, h2.evo he.baNext hkp (fun _ => e) (fun e => by rw [h4] at e; cases e), .inl ⟨h4, by rw [e]; exact h5⟩⟩
    · have hl : (Proc.updB op value cm).unl.list = lockList2 op.node op.parent := by
        unfold UKind.isRoot at h4
        simp only [Proc.unl, UpdOp.unl]
        split at h4 <;> simp_all [Unlock.list]
      obtain ⟨g1, g2⟩ := hpar _ _ hl
      obtain ⟨ch', g3, g4⟩ := he.uknow' h5 g1
      refine ⟨q, pfx, big, ch', h2.evo he.baNext hkp (fun e => by rw [h4] at e; cases e) (fun _ => ⟨h5, g4, ?_, ?_⟩),
        .inr ⟨h4, g3, he.holdUp h6 g2⟩⟩
      · exact (h5.at'.repr hc.repr).1
      · exact (g3.at'.repr hr').1
  | delB cur cm =>
    obtain ⟨h1, q, pfx, ch, big2, kids, h2, h3⟩ := h
    refine ⟨h1, ?_⟩
    have hkp : ∀ x, (0 < cm.priv x ∨ (0 < t.cover x ∧ 0 < cm.ok.seg x)) → s'.st.mem x = s.st.mem x := hkeep
    rcases h3 with ⟨h3, h4⟩ | ⟨h3, h4, h5⟩ | ⟨h3, k, k2, lk, lv, pfx2, h4, h5, h6⟩ | ⟨h3, h4, h5, t0, q0, n, pfx0, ch0, k, h6, h7⟩
    · have hr : (Proc.delB cur cm).unl = .root := by simp [Proc.unl, DelOp.unl, h3]
      have ht : t.isNode = false := by
        have h4' := h4
        unfold DFact at h4'
        rw [h3] at h4'
        obtain ⟨_, _, rfl, _⟩ := h4'
        rfl
      refine ⟨q, pfx, ch, big2, kids, ?_, .inl ⟨h3, by rw [hroot hr ht]; exact h4⟩⟩
      unfold DBlt at h2 ⊢
      simp only [h3] at h2 ⊢
      exact h2
    · have hl : (Proc.delB cur cm).unl.list = lockList2 cur.op.node cur.op.parent := by
        rcases h3 with h3 | h3 <;> simp [Proc.unl, DelOp.unl, h3, Unlock.list]
      obtain ⟨g1, g2⟩ := hpar _ _ hl
      obtain ⟨ch', g3, g4⟩ := he.dknow' h4 g1
      exact ⟨q, pfx, ch', big2, kids, h2.evo_shrink h3 he.baNext hkp h4 g4 (h4.at'.repr hc.repr).1 (g3.at'.repr hr').1,
        .inr (.inl ⟨h3, g3, he.holdUp h5 g2⟩)⟩
    · have hl : (Proc.delB cur cm).unl.list = lockList3 cur.op.child cur.op.node cur.op.parent := by
        simp [Proc.unl, DelOp.unl, h3, Unlock.list]
      have g1 : cur.op.node ∉ L := hdisj _ (by rw [hl]; unfold lockList3; split <;> simp)
      have g2 : cur.op.parent ≠ 0 → cur.op.parent ∉ L := fun h0 => hdisj _ (by
        rw [hl]; unfold lockList3; rw [if_neg h0]; simp)
      have g0 : cur.op.child ∉ L := hdisj _ (by rw [hl]; unfold lockList3; split <;> simp)
      obtain ⟨kids', g3, _⟩ := he.dmerge h4 g1
      have hat : At t (q ++ pfx ++ [k2]) (.node cur.op.child pfx2 big2 kids) := by
        have := h4.at'.child k2
        rwa [ch2_snd] at this
      have hat' : At t' (q ++ pfx ++ [k2]) (.node cur.op.child pfx2 big2 kids') := by
        have := g3.at'.child k2
        rwa [ch2_snd] at this
      obtain ⟨kids2, i1, i2, _, _⟩ := he.node hat g0
      have ek : kids2 = kids' := by
        have := i1.det hat'
        injection this
      subst ek
      exact ⟨q, pfx, ch, big2, kids2, h2.evo_merge h3 he.baNext hkp hat h4.count h6.1 i2 (hat.repr hc.repr).1 (hat'.repr hr').1,
        .inr (.inr (.inl ⟨h3, k, k2, lk, lv, pfx2, g3, he.holdUp h5 g2, h6⟩))⟩
    · refine ⟨q, pfx, ch, big2, kids, ?_, .inr (.inr (.inr ⟨h3, h4, h5, t0, q0, n, pfx0, ch0, k, hS _ h6, h7⟩))⟩
      unfold DBlt at h2 ⊢
      simp only [h3] at h2 ⊢
      exact h2

end

end Radix
