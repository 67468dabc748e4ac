import Verif.Sys.Evo
/-!
# Preservation of the global parts of the invariant
-/
namespace Radix
open T

/-! ## Locks -/

theorem gen_of_locks {st st' : St} (h : st'.locks = st.locks) (n : Nat) : st'.gen n = st.gen n := by
  unfold St.gen; rw [h]

theorem gen_bump_same {st st' : St} {L : List Nat} {n : Nat} (h : st'.locks = bumpLocks st.locks L) (hn : ∃ m ∈ L, sameLock m n) :
    st'.gen n = st.gen n + 1 := by
  rw [← bump_gen_same (st := st) hn]; unfold St.gen; rw [h]

theorem gen_bump_other {st st' : St} {L : List Nat} {n : Nat} (h : st'.locks = bumpLocks st.locks L)
    (hn : ¬ ∃ m ∈ L, sameLock m n) : st'.gen n = st.gen n := by
  rw [← bump_gen_other (st := st) hn]; unfold St.gen; rw [h]

theorem gen_bump_le {st st' : St} {L : List Nat} (h : st'.locks = bumpLocks st.locks L) (n : Nat) : st.gen n ≤ st'.gen n := by
  by_cases hn : ∃ m ∈ L, sameLock m n
  · rw [gen_bump_same h hn]; omega
  · rw [gen_bump_other h hn]; omega

theorem LInv.same {s s' : Sys} (h : LInv s) (hl : s'.st.locks = s.st.locks) (hr : s'.st.rootLock = s.st.rootLock)
    (hu : ∀ b, (s'.proc b).unl = (s.proc b).unl) : LInv s' where
  odd b n hn := by rw [hu b] at hn; rw [gen_of_locks hl]; exact h.odd b n hn
  excl a b hab n hn m hm := by rw [hu] at hn hm; exact h.excl a b hab n hn m hm
  root := by
    rw [hr]
    simp only [hu]
    exact h.root
  held n hn := by
    rw [gen_of_locks hl] at hn
    obtain ⟨a, m, h1, h2⟩ := h.held n hn
    exact ⟨a, m, by rw [hu]; exact h1, h2⟩

theorem LInv.acquire {s s' : Sys} {a : Nat} {L : List Nat} (h : LInv s) (hl : s'.st.locks = bumpLocks s.st.locks L)
    (hr : s'.st.rootLock = s.st.rootLock) (he : allEven s.st L) (hu : ∀ b, b ≠ a → (s'.proc b).unl = (s.proc b).unl)
    (h0 : (s.proc a).unl = .none) (h1 : (s'.proc a).unl.list = L) (h2 : (s'.proc a).unl ≠ .root) : LInv s' := by
  have hno : ∀ n, s.st.gen n % 2 = 1 → ¬ ∃ m ∈ L, sameLock m n := by
    rintro n hn ⟨m, hm, hs⟩
    have := he m hm
    rw [gen_congr hs] at this
    omega
  refine ⟨?_, ?_, ?_, ?_⟩
  · intro b n hn
    by_cases hb : b = a
    · subst hb
      rw [h1] at hn
      rw [gen_bump_same hl ⟨n, hn, sameLock_refl n⟩]
      have := he n hn
      omega
    · rw [hu b hb] at hn
      have := h.odd b n hn
      rw [gen_bump_other hl (hno n this)]
      exact this
  · intro b c hbc n hn m hm
    by_cases hb : b = a
    · subst hb
      rw [h1] at hn
      rw [hu c (Ne.symm hbc)] at hm
      intro hs
      exact hno m (h.odd c m hm) ⟨n, hn, hs⟩
    · rw [hu b hb] at hn
      by_cases hc : c = a
      · subst hc
        rw [h1] at hm
        intro hs
        exact hno n (h.odd b n hn) ⟨m, hm, sameLock_comm.1 hs⟩
      · rw [hu c hc] at hm
        exact h.excl b c hbc n hn m hm
  · rw [hr]
    rcases h.root with ⟨g1, g2⟩ | ⟨g1, b, g2, g3⟩
    · refine .inl ⟨g1, fun c => ?_⟩
      by_cases hc : c = a
      · subst hc; exact h2
      · rw [hu c hc]; exact g2 c
    · have hba : b ≠ a := by rintro rfl; rw [h0] at g2; cases g2
      refine .inr ⟨g1, b, by rw [hu b hba]; exact g2, fun c hc => ?_⟩
      by_cases hca : c = a
      · subst hca; exact absurd hc h2
      · rw [hu c hca] at hc; exact g3 c hc
  · intro n hn
    by_cases hs : ∃ m ∈ L, sameLock m n
    · obtain ⟨m, hm, hs⟩ := hs
      exact ⟨a, m, by rw [h1]; exact hm, hs⟩
    · rw [gen_bump_other hl hs] at hn
      obtain ⟨b, m, g1, g2⟩ := h.held n hn
      have hb : b ≠ a := by
        rintro rfl
        rw [h0] at g1
        simp [Unlock.list] at g1
      exact ⟨b, m, by rw [hu b hb]; exact g1, g2⟩

theorem LInv.acquireRoot {s s' : Sys} {a : Nat} (h : LInv s) (hl : s'.st.locks = s.st.locks)
    (hr0 : s.st.rootLock = 0) (hr : s'.st.rootLock = 1) (hu : ∀ b, b ≠ a → (s'.proc b).unl = (s.proc b).unl)
    (h0 : (s.proc a).unl = .none) (h1 : (s'.proc a).unl = .root) : LInv s' := by
  have hlist : ∀ b, (s'.proc b).unl.list = (s.proc b).unl.list := by
    intro b
    by_cases hb : b = a
    · subst hb; rw [h0, h1]; rfl
    · rw [hu b hb]
  refine ⟨?_, ?_, ?_, ?_⟩
  · intro b n hn
    rw [hlist] at hn
    rw [gen_of_locks hl]; exact h.odd b n hn
  · intro b c hbc n hn m hm
    rw [hlist] at hn hm
    exact h.excl b c hbc n hn m hm
  · refine .inr ⟨hr, a, h1, ?_⟩
    intro b hb
    rcases h.root with ⟨_, g⟩ | ⟨g, _⟩
    · by_cases hba : b = a
      · exact hba
      · rw [hu b hba] at hb; exact absurd hb (g b)
    · omega
  · intro n hn
    rw [gen_of_locks hl] at hn
    obtain ⟨b, m, g1, g2⟩ := h.held n hn
    exact ⟨b, m, by rw [hlist]; exact g1, g2⟩

theorem LInv.release {s s' : Sys} {a : Nat} (h : LInv s) (hl : s'.st.locks = bumpLocks s.st.locks (s.proc a).unl.list)
    (hr : s'.st.rootLock = s.st.rootLock - (s.proc a).unl.rootN) (hu : ∀ b, b ≠ a → (s'.proc b).unl = (s.proc b).unl)
    (h1 : (s'.proc a).unl = .none) : LInv s' := by
  have hnone : ∀ n, n ∉ (s'.proc a).unl.list := by rw [h1]; simp [Unlock.list]
  refine ⟨?_, ?_, ?_, ?_⟩
  · intro b n hn
    by_cases hb : b = a
    · subst hb; exact absurd hn (hnone n)
    · rw [hu b hb] at hn
      rw [gen_bump_other hl]
      · exact h.odd b n hn
      · rintro ⟨m, hm, hs⟩
        exact h.excl a b (Ne.symm hb) m hm n hn hs
  · intro b c hbc n hn m hm
    by_cases hb : b = a
    · subst hb; exact absurd hn (hnone n)
    · by_cases hc : c = a
      · subst hc; exact absurd hm (hnone m)
      · rw [hu b hb] at hn
        rw [hu c hc] at hm
        exact h.excl b c hbc n hn m hm
  · rcases h.root with ⟨g1, g2⟩ | ⟨g1, b, g2, g3⟩
    · refine .inl ⟨?_, fun c => ?_⟩
      · rw [hr, g1]
        have := g2 a
        cases hua : (s.proc a).unl <;> simp_all [Unlock.rootN]
      · by_cases hc : c = a
        · subst hc; rw [h1]; simp
        · rw [hu c hc]; exact g2 c
    · by_cases hba : b = a
      · subst hba
        refine .inl ⟨by rw [hr, g1, g2]; rfl, fun c hc => ?_⟩
        by_cases hcb : c = b
        · subst hcb; rw [h1] at hc; cases hc
        · rw [hu c hcb] at hc
          exact hcb (g3 c hc)
      · refine .inr ⟨?_, b, by rw [hu b hba]; exact g2, ?_⟩
        · rw [hr, g1]
          have : (s.proc a).unl ≠ .root := fun e => hba (g3 a e).symm
          cases hua : (s.proc a).unl <;> simp_all [Unlock.rootN]
        · intro c hc
          by_cases hca : c = a
          · subst hca; rw [h1] at hc; cases hc
          · rw [hu c hca] at hc; exact g3 c hc
  · intro n hn
    by_cases hs : ∃ m ∈ (s.proc a).unl.list, sameLock m n
    · rw [gen_bump_same hl hs] at hn
      obtain ⟨m, hm, hs⟩ := hs
      have := h.odd a m hm
      rw [gen_congr hs] at this
      omega
    · rw [gen_bump_other hl hs] at hn
      obtain ⟨b, m, g1, g2⟩ := h.held n hn
      have hb : b ≠ a := by
        rintro rfl
        exact hs ⟨m, g1, g2⟩
      exact ⟨b, m, by rw [hu b hb]; exact g1, g2⟩

theorem sameLock_trans {a b c : Nat} (h : sameLock a b) (h' : sameLock b c) : sameLock a c := ⟨h.1.trans h'.1, h.2.trans h'.2⟩

/-- The locks held are named differently. -/
theorem LInv.rename {s s' : Sys} {a : Nat} (h : LInv s) (hl : s'.st.locks = s.st.locks) (hr : s'.st.rootLock = s.st.rootLock)
    (hu : ∀ b, b ≠ a → (s'.proc b).unl = (s.proc b).unl)
    (h1 : ∀ m ∈ (s'.proc a).unl.list, ∃ m' ∈ (s.proc a).unl.list, sameLock m' m)
    (h2 : ∀ m ∈ (s.proc a).unl.list, ∃ m' ∈ (s'.proc a).unl.list, sameLock m' m)
    (h3 : (s'.proc a).unl = .root ↔ (s.proc a).unl = .root) : LInv s' := by
  have key : ∀ b, ∀ m ∈ (s'.proc b).unl.list, ∃ m' ∈ (s.proc b).unl.list, sameLock m' m := by
    intro b m hm
    by_cases hb : b = a
    · subst hb; exact h1 m hm
    · rw [hu b hb] at hm; exact ⟨m, hm, sameLock_refl _⟩
  have hroot : ∀ b, (s'.proc b).unl = .root ↔ (s.proc b).unl = .root := by
    intro b
    by_cases hb : b = a
    · subst hb; exact h3
    · rw [hu b hb]
  refine ⟨?_, ?_, ?_, ?_⟩
  · intro b m hm
    obtain ⟨m', hm', hs⟩ := key b m hm
    rw [gen_of_locks hl, ← gen_congr hs]
    exact h.odd b m' hm'
  · intro b c hbc n hn m hm hs
    obtain ⟨n', hn', hs1⟩ := key b n hn
    obtain ⟨m', hm', hs2⟩ := key c m hm
    exact h.excl b c hbc n' hn' m' hm' (sameLock_trans (sameLock_trans hs1 hs) (sameLock_comm.1 hs2))
  · rw [hr]
    simp only [hroot, ne_eq]
    exact h.root
  · intro n hn
    rw [gen_of_locks hl] at hn
    obtain ⟨b, m, g1, g2⟩ := h.held n hn
    by_cases hb : b = a
    · subst hb
      obtain ⟨m', g3, g4⟩ := h2 m g1
      exact ⟨b, m', g3, sameLock_trans g4 g2⟩
    · exact ⟨b, m, by rw [hu b hb]; exact g1, g2⟩

/-- One of the locks is released. -/
theorem LInv.releaseOne {s s' : Sys} {a n : Nat} (h : LInv s) (hl : s'.st.locks = bumpLocks s.st.locks [n])
    (hr : s'.st.rootLock = s.st.rootLock) (hu : ∀ b, b ≠ a → (s'.proc b).unl = (s.proc b).unl)
    (h0 : n ∈ (s.proc a).unl.list) (h1 : ∀ m ∈ (s'.proc a).unl.list, m ∈ (s.proc a).unl.list ∧ ¬ sameLock m n)
    (h2 : ∀ m ∈ (s.proc a).unl.list, sameLock m n ∨ m ∈ (s'.proc a).unl.list)
    (h3 : (s.proc a).unl ≠ .root) (h4 : (s'.proc a).unl ≠ .root) : LInv s' := by
  have key : ∀ b, ∀ m ∈ (s'.proc b).unl.list, m ∈ (s.proc b).unl.list ∧ ¬ sameLock m n := by
    intro b m hm
    by_cases hb : b = a
    · subst hb; exact h1 m hm
    · rw [hu b hb] at hm
      exact ⟨hm, h.excl b a hb m hm n h0⟩
  have hroot : ∀ b, (s'.proc b).unl = .root ↔ (s.proc b).unl = .root := by
    intro b
    by_cases hb : b = a
    · subst hb; exact ⟨fun e => absurd e h4, fun e => absurd e h3⟩
    · rw [hu b hb]
  refine ⟨?_, ?_, ?_, ?_⟩
  · intro b m hm
    obtain ⟨hm', hs⟩ := key b m hm
    rw [gen_bump_other hl (by simpa using fun e => hs (sameLock_comm.1 e))]
    exact h.odd b m hm'
  · intro b c hbc n hn m hm hs
    exact h.excl b c hbc n (key b n hn).1 m (key c m hm).1 hs
  · rw [hr]
    simp only [hroot, ne_eq]
    exact h.root
  · intro x hx
    by_cases hs : sameLock n x
    · rw [gen_bump_same hl ⟨n, by simp, hs⟩] at hx
      have := h.odd a n h0
      rw [gen_congr hs] at this
      omega
    · rw [gen_bump_other hl (by simpa using hs)] at hx
      obtain ⟨b, m, g1, g2⟩ := h.held x hx
      by_cases hb : b = a
      · subst hb
        rcases h2 m g1 with g | g
        · exact absurd (sameLock_trans (sameLock_comm.1 g) g2) hs
        · exact ⟨b, m, g, g2⟩
      · exact ⟨b, m, by rw [hu b hb]; exact g1, g2⟩

/-- A free lock is not in the window. -/
theorem LInv.even {s : Sys} (h : LInv s) {n : Nat} (hn : s.st.gen n % 2 = 0) : ¬ s.Window n := by
  rintro ⟨a, tl, h1, m, h2, h3⟩
  have := h.odd a m (by rw [Proc.unl_of_tail h1]; exact h2)
  rw [gen_congr h3] at this
  omega

/-! ## Sums -/

theorem sum_map_upd_nat {f : Nat → Nat} {c : Nat} {v : Nat} (l : List Nat) (hn : l.Nodup) (hc : c ∈ l) :
    (l.map (upd f c v)).sum + f c = (l.map f).sum + v := by
  induction l with
  | nil => simp at hc
  | cons b l ih =>
    rw [List.nodup_cons] at hn
    simp only [List.map_cons, List.sum_cons]
    by_cases hb : b = c
    · subst hb
      have : l.map (upd f b v) = l.map f := by
        apply List.map_congr_left
        intro x hx
        exact upd_of_ne _ _ (by rintro rfl; exact hn.1 hx)
      rw [this, upd_same]
      omega
    · have := ih hn.2 (by simpa [Ne.symm hb] using hc)
      rw [upd_of_ne _ _ hb]
      omega

theorem pend_step {s s' : Sys} {a : Nat} (ha : a < s.st.nalloc) (hn : s'.st.nalloc = s.st.nalloc)
    (hp : ∀ b, b ≠ a → s'.proc b = s.proc b) (x : Nat) :
    s'.pend x + (s.proc a).pend x = s.pend x + (s'.proc a).pend x := by
  unfold Sys.pend
  rw [hn, ← sum_map_upd_nat (f := fun b => (s.proc b).pend x) (v := (s'.proc a).pend x) (List.range s.st.nalloc)
    List.nodup_range (List.mem_range.2 ha)]
  congr 2
  apply List.map_congr_left
  intro b _
  by_cases hb : b = a
  · subst hb; simp
  · rw [upd_of_ne _ _ hb, hp b hb]

theorem items_step {s s' : Sys} {a : Nat} (ha : a < s.st.nalloc) (hn : s'.st.nalloc = s.st.nalloc)
    (hp : ∀ b, b ≠ a → s'.proc b = s.proc b) :
    s'.items + (s.proc a).items = s.items + (s'.proc a).items := by
  unfold Sys.items
  rw [hn, ← sum_map_upd_int (f := fun b => (s.proc b).items) (v := (s'.proc a).items) (List.range s.st.nalloc)
    List.nodup_range (List.mem_range.2 ha)]
  congr 2
  apply List.map_congr_left
  intro b _
  by_cases hb : b = a
  · subst hb; simp
  · rw [upd_of_ne _ _ hb, hp b hb]

theorem pend_congr {s s' : Sys} (hn : s'.st.nalloc = s.st.nalloc) (hp : ∀ b, (s'.proc b).pend = (s.proc b).pend) : s'.pend = s.pend := by
  funext x
  unfold Sys.pend
  simp only [hn, hp]

theorem items_congr {s s' : Sys} (hn : s'.st.nalloc = s.st.nalloc) (hp : ∀ b, (s'.proc b).items = (s.proc b).items) : s'.items = s.items := by
  unfold Sys.items
  simp only [hn, hp]

theorem Proc.priv_le (p : Proc) (x : Nat) : p.priv x ≤ p.pend x := by
  unfold Proc.pend
  cases p with
  | upd ph => cases ph <;> simp [Proc.tail?, Proc.priv, Proc.cm?]
  | del ph => cases ph <;> simp [Proc.tail?, Proc.priv, Proc.cm?]
  | _ => simp [Proc.tail?]

theorem Proc.priv_none {p : Proc} (h : p.cm? = none) (x : Nat) : p.priv x = 0 := by unfold Proc.priv; rw [h]

theorem Proc.copied_none {p : Proc} (h : p.cm? = none) (x : Nat) : p.copied x = 0 := by unfold Proc.copied; rw [h]

theorem le_sum_of_mem {l : List Nat} {x : Nat} (h : x ∈ l) : x ≤ l.sum := by
  induction l with
  | nil => simp at h
  | cons y l ih =>
    simp only [List.sum_cons]
    rcases List.mem_cons.1 h with rfl | h
    · omega
    · have := ih h; omega

/-- The memory of new nodes is accounted for. -/
theorem Sys.priv_le {s : Sys} (hoff : ∀ a, s.st.nalloc ≤ a → s.proc a = .idle) (a x : Nat) : (s.proc a).priv x ≤ s.pend x := by
  by_cases ha : a < s.st.nalloc
  · refine Nat.le_trans (Proc.priv_le _ x) ?_
    exact le_sum_of_mem (List.mem_map.2 ⟨a, List.mem_range.2 ha, rfl⟩)
  · rw [hoff a (by omega)]
    exact Nat.zero_le _

/-! ## Looking at a node -/

theorem nodeSize_pos {P : Key → Word → Prop} {q n pfx big ch} (h : (T.node n pfx big ch).WF P q) : 0 < nodeSize pfx big ch := by
  unfold nodeSize Radix.cnt
  cases big with
  | true => rw [if_pos rfl]; omega
  | false => have := h.2.1 rfl; rw [if_neg (by simp)]; omega

/-- In a tree whose nodes do not overlap, two nodes with a slot in common are at the same path. -/
theorem At.inj {t : T} {x : Nat} (hx : t.cover x ≤ 1) {q1 n1 pfx1 big1 ch1} (h1 : At t q1 (.node n1 pfx1 big1 ch1))
    (h1a : n1 ≤ x) (h1b : x < n1 + nodeSize pfx1 big1 ch1) {q2 n2 pfx2 big2 ch2} (h2 : At t q2 (.node n2 pfx2 big2 ch2))
    (h2a : n2 ≤ x) (h2b : x < n2 + nodeSize pfx2 big2 ch2) : q1 = q2 := by
  induction t generalizing q1 q2 with
  | empty => have := h1.inv_empty; simp at this
  | leaf => have := h1.inv_leaf; simp at this
  | node n pfx big ch ih =>
    simp only [T.cover] at hx
    rcases h1.inv_node with ⟨e1, he1⟩ | ⟨c1, r1, e1, hat1⟩
    · injection he1 with i1 i2 i3 i4
      subst i1 i2 i3 i4
      rw [if_pos ⟨h1a, h1b⟩] at hx
      rcases h2.inv_node with ⟨e2, _⟩ | ⟨c2, r2, e2, hat2⟩
      · rw [e1, e2]
      · have g1 := hat2.cover_node h2a h2b
        have g2 := le_sumB (fun c => (ch1 c).cover x) c2
        omega
    · have f1 := hat1.cover_node h1a h1b
      have f2 := le_sumB (fun c => (ch c).cover x) c1
      rcases h2.inv_node with ⟨e2, he2⟩ | ⟨c2, r2, e2, hat2⟩
      · injection he2 with i1 i2 i3 i4
        subst i1 i2 i3 i4
        rw [if_pos ⟨h2a, h2b⟩] at hx
        omega
      · have g1 := hat2.cover_node h2a h2b
        by_cases hc : c1 = c2
        · subst hc
          have := ih c1 (by omega) hat1 hat2
          rw [e1, e2, this]
        · have := add_le_sumB (fun c => (ch c).cover x) hc
          omega

section
variable {env : Env} {s : Sys} {σ : Spec} {t : T} {seen : Nat → T → Prop} (hm : MInv env s σ t seen)
include hm

/-- A node referred to by a running operation is in memory as one of the trees seen has it. -/
theorem MInv.look {a : Nat} {raw : Word} {q : Key} (ha : (s.proc a).active = true) (h : SeenRef (seen a) raw q) :
    ∃ n pfx big ch, View env.P s.st.baNext s.st.mem raw q n pfx big ch ∧ (∃ t1, seen a t1 ∧ At t1 q (.node n pfx big ch)) ∧
      (LiveRef t raw q → At t q (.node n pfx big ch)) := by
  obtain ⟨t0, h0, b, n, pfx, big, ch, hat, hraw⟩ := h
  have hok := hm.ok a t0 ha h0
  have haddr : nodeAddr raw = n := by rw [hraw]; exact nodeAddr_wordOf hm.core.bn (hat.inBlocks hok.inb)
  rcases hm.trail a t0 q n pfx big ch ha h0 hat with ⟨ch', h1, h2⟩ | ⟨t1, ch', h1, h2, h3, h4, h5⟩
  · have hraw' : raw = wordOf b (.node n pfx big ch') := by rw [hraw]; simp only [wordOf, h2.cnt]
    refine ⟨n, pfx, big, ch', ?_, ⟨t, hm.now a ha, h1⟩, fun _ => h1⟩
    have := hm.core.view (b := b) h1
    rwa [← hraw'] at this
  · have hraw' : raw = wordOf b (.node n pfx big ch') := by rw [hraw]; simp only [wordOf, h3.cnt]
    have hok1 := hm.ok a t1 ha h1
    refine ⟨n, pfx, big, ch', ⟨hm.core.bn, h2.inBlocks hok1.inb, by simpa using h2.wf hok1.wf, h4, b, hraw'⟩, ⟨t1, h1, h2⟩, ?_⟩
    rintro ⟨b2, n2, pfx2, big2, ch2, g1, g2⟩
    exfalso
    have e : nodeAddr raw = n2 := by rw [g2]; exact nodeAddr_wordOf hm.core.bn (g1.inBlocks hm.core.inb)
    have en : n2 = n := e.symm.trans haddr
    subst en
    have z := h5 n2 (Nat.le_refl _) (by have := nodeSize_pos (hat.wf hok.wf); omega)
    have := g1.cover_node (x := n2) (Nat.le_refl _) (by have := nodeSize_pos (g1.wf hm.core.wf); omega)
    omega

/-- The same for a given node. -/
theorem MInv.lookAt {a : Nat} {raw : Word} {q : Key} {b : UInt8} {n : Nat} {pfx : List UInt8} {big : Bool} {ch : UInt8 → T} {t0 : T}
    (ha : (s.proc a).active = true) (h0 : seen a t0) (hat : At t0 q (.node n pfx big ch)) (hraw : raw = wordOf b (.node n pfx big ch)) :
    ∃ ch', SameKids big ch ch' ∧ View env.P s.st.baNext s.st.mem raw q n pfx big ch' ∧ ∃ t1, seen a t1 ∧ At t1 q (.node n pfx big ch') := by
  rcases hm.trail a t0 q n pfx big ch ha h0 hat with ⟨ch', h1, h2⟩ | ⟨t1, ch', h1, h2, h3, h4, h5⟩
  · have hraw' : raw = wordOf b (.node n pfx big ch') := by rw [hraw]; simp only [wordOf, h2.cnt]
    refine ⟨ch', h2, ?_, ⟨t, hm.now a ha, h1⟩⟩
    have := hm.core.view (b := b) h1
    rwa [← hraw'] at this
  · have hraw' : raw = wordOf b (.node n pfx big ch') := by rw [hraw]; simp only [wordOf, h3.cnt]
    have hok1 := hm.ok a t1 ha h1
    exact ⟨ch', h3, ⟨hm.core.bn, h2.inBlocks hok1.inb, by simpa using h2.wf hok1.wf, h4, b, hraw'⟩, ⟨t1, h1, h2⟩⟩

/-- Only memory that is free for use changes. -/
theorem MInv.keeps {st' : St} (b : Nat) (hmem : ∀ x, freeP (fun _ => false) s.st x = 0 → st'.mem x = s.st.mem x) :
    Keeps s.st st' t (s.proc b) := by
  intro x hx
  apply hmem
  have h1 := hm.core.sep x
  have h2 := freeP_le (fun _ => false) s.st x
  have h3 := Sys.priv_le hm.off b x
  rcases hx with hx | ⟨hx, _⟩ <;> omega

/-! ## Steps that leave the tree alone -/

theorem MInv.quiet {s' : Sys} {σ' : Spec} {seen' : Nat → T → Prop} {a : Nat} (hcore : CoreN env.P s'.st t s'.pend)
    (hn : s'.st.nalloc = s.st.nalloc) (hbn : s.st.baNext ≤ s'.st.baNext)
    (hmem : ∀ x, freeP (fun _ => false) s.st x = 0 → s'.st.mem x = s.st.mem x)
    (hfree : ∀ p : Nat → Bool, p s.st.epoch = false → ∀ x, freeP p s'.st x ≤ freeP p s.st x)
    (hep : s.st.epoch ≤ s'.st.epoch) (hp : ∀ b, b ≠ a → s'.proc b = s.proc b)
    (hr : ∀ b, b ≠ a → s'.st.resv b = s.st.resv b) (hoff : s.st.nalloc ≤ a → s'.proc a = .idle)
    (htot : s'.st.total + s'.items = s.st.total + s.items)
    (hidle : (s'.proc a).active = false → s'.st.resv a = maxUint64)
    (harm : ∀ e c, s'.proc a = .arm e c → e ≤ s'.st.epoch) (hmap : σ'.map = σ.map)
    (hwin : ∀ b, b ≠ a → σ'.window b = σ.window b) (hseen : ∀ b, b ≠ a → seen' b = seen b)
    (hpriv : ∀ x, 0 < (s'.proc a).priv x → 0 < (s.proc a).priv x)
    (hact : (s'.proc a).active = true →
      ((s.proc a).active = true ∧ s'.st.resv a = s.st.resv a ∧ seen' a = seen a ∧ σ'.window a = σ.window a) ∨
      (s'.st.resv a ≤ s'.st.epoch ∧ seen' a = (fun t' => t' = t) ∧ σ'.window a = [σ.map])) :
    MInv env s' σ' t seen' := by
  -- the trees seen by an operation that went on
  have key : ∀ b, (s'.proc b).active = true →
      ((s.proc b).active = true ∧ s'.st.resv b = s.st.resv b ∧ seen' b = seen b ∧ σ'.window b = σ.window b) ∨
      (s'.st.resv b ≤ s'.st.epoch ∧ seen' b = (fun t' => t' = t) ∧ σ'.window b = [σ.map]) := by
    intro b hb
    by_cases hba : b = a
    · subst hba; exact hact hb
    · exact .inl ⟨by rw [← hp b hba]; exact hb, hr b hba, hseen b hba, hwin b hba⟩
  have hoff' : ∀ b, s'.st.nalloc ≤ b → s'.proc b = .idle := by
    intro b hb
    by_cases hba : b = a
    · subst hba; exact hoff (by rw [← hn]; exact hb)
    · rw [hp b hba]; exact hm.off b (by rw [← hn]; exact hb)
  refine ⟨hcore, hoff', by rw [hmap]; exact hm.content, ?_, ?_, ?_, ?_, ?_, ?_, ?_, ?_, ?_, ?_⟩
  · intro b hb
    by_cases hba : b = a
    · subst hba; exact hidle hb
    · rw [hp b hba] at hb
      rw [hr b hba]; exact hm.idle b hb
  · intro b e c hb
    by_cases hba : b = a
    · subst hba; exact harm e c hb
    · rw [hp b hba] at hb
      exact Nat.le_trans (hm.arm b e c hb) hep
  · intro b hb
    rcases key b hb with ⟨h1, h2, h3, h4⟩ | ⟨h1, h2, h3⟩
    · rw [h3]; exact hm.now b h1
    · rw [h2]
  · intro b hb
    rcases key b hb with ⟨h1, h2, h3, h4⟩ | ⟨h1, h2, h3⟩
    · rw [h2]; exact Nat.le_trans (hm.resv b h1) hep
    · exact h1
  · intro b t' hb ht
    rcases key b hb with ⟨h1, h2, h3, h4⟩ | ⟨h1, h2, h3⟩
    · rw [h3] at ht
      have hok := hm.ok b t' h1 ht
      refine ⟨hok.wf, hok.inb.mono hbn, ?_⟩
      intro x hx
      rw [h2]
      have h5 := hfree (fun e => decide (e < s.st.resv b)) (by
        have := hm.resv b h1
        simp; omega) x
      have h6 := hok.prot x hx
      omega
    · rw [h2] at ht
      subst ht
      refine ⟨hcore.wf, hcore.inb, ?_⟩
      intro x hx
      have h5 := hcore.sep x
      have h6 := freeP_le (fun e => decide (e < s'.st.resv b)) s'.st x
      omega
  · intro b t' hb ht
    rcases key b hb with ⟨h1, h2, h3, h4⟩ | ⟨h1, h2, h3⟩
    · rw [h3] at ht
      rw [h4]; exact hm.win b t' h1 ht
    · rw [h2] at ht
      subst ht
      rw [h3]
      exact ⟨σ.map, by simp, hm.content⟩
  · intro b t' q n pfx big ch hb ht hat
    rcases key b hb with ⟨h1, h2, h3, h4⟩ | ⟨h1, h2, h3⟩
    · rw [h3] at ht ⊢
      rcases hm.trail b t' q n pfx big ch h1 ht hat with h5 | ⟨t1, ch', h5, h6, h7, h8, h9⟩
      · exact .inl h5
      · refine .inr ⟨t1, ch', h5, h6, h7, ?_, h9⟩
        apply h8.congr
        intro x hx1 hx2
        apply hmem
        have h10 := (hm.ok b t1 h1 h5).prot x (h6.cover_node hx1 hx2)
        have h11 := freeP_mono (p := fun _ => false) (q := fun e => decide (e < s.st.resv b)) (by simp) s.st x
        omega
    · rw [h2] at ht
      subst ht
      exact .inl ⟨ch, hat, .refl _ _⟩
  · intro b t1 t2 q1 q2 n pfx1 big1 ch1 pfx2 big2 ch2 hb ht1 ht2 hat1 hat2
    rcases key b hb with ⟨h1, h2, h3, h4⟩ | ⟨h1, h2, h3⟩
    · rw [h3] at ht1 ht2
      exact hm.uniq b t1 t2 q1 q2 n pfx1 big1 ch1 pfx2 big2 ch2 h1 ht1 ht2 hat1 hat2
    · rw [h2] at ht1 ht2
      subst ht1 ht2
      refine At.inj (x := n) ?_ hat1 (Nat.le_refl _) ?_ hat2 (Nat.le_refl _) ?_
      · have := hcore.sep n; omega
      · have := nodeSize_pos (hat1.wf hcore.wf); omega
      · have := nodeSize_pos (hat2.wf hcore.wf); omega
  · obtain ⟨l, h1, h2, h3⟩ := hm.count
    exact ⟨l, h1, h2, by rw [htot]; exact h3⟩
  · intro b c t' hc ht x hx
    rcases key c hc with ⟨h1, h2, h3, h4⟩ | ⟨h1, h2, h3⟩
    · rw [h3] at ht
      refine hm.priv b c t' h1 ht x ?_
      by_cases hba : b = a
      · subst hba; exact hpriv x hx
      · rw [← hp b hba]; exact hx
    · rw [h2] at ht
      subst ht
      have := Sys.priv_le hoff' b x
      have := hcore.sep x
      omega

end

end Radix
