import Verif.Sys.StepR
import Verif.Split
/-!
# Publishing a change preserves the invariant
-/
namespace Radix
open T

theorem foldl_min_le (f : Nat → Nat) : ∀ (l : List Nat) (m : Nat),
    l.foldl (fun m i => if f i < m then f i else m) m ≤ m ∧
    ∀ b ∈ l, l.foldl (fun m i => if f i < m then f i else m) m ≤ f b := by
  intro l
  induction l with
  | nil => intro m; simp
  | cons c l ih =>
    intro m
    simp only [List.foldl_cons]
    obtain ⟨h1, h2⟩ := ih (if f c < m then f c else m)
    constructor
    · split at h1 <;> rename_i h
      · simp only [h, if_true]; omega
      · simp only [h, if_false]; omega
    · intro b hb
      rcases List.mem_cons.1 hb with rfl | hb
      · split at h1 <;> rename_i h
        · simp only [h, if_true]; omega
        · simp only [h, if_false]; omega
      · exact h2 b hb

theorem minReservation_le {st : St} {b : Nat} (hb : b < st.nalloc) : st.minReservation ≤ st.resv b :=
  (foldl_min_le st.resv _ _).2 b (List.mem_range.2 hb)

theorem Contents.unique {t : T} {M M' : Map} (h : Contents t M) (h' : Contents t M') : M = M' := by
  funext k
  cases hk : M k with
  | some v =>
    have := (h' k v).1 ((h k v).2 hk)
    exact this.symm
  | none =>
    cases hk' : M' k with
    | none => rfl
    | some v =>
      have := (h k v).1 ((h' k v).2 hk')
      rw [hk] at this; cases this

theorem Contents.upd1 {t t' : T} {M : Map} {key : Key} {val : Word} (h : Contents t M) (hu : Upd1 t t' key val) :
    Contents t' (upd M key (some val)) := by
  intro k v
  rw [hu k v]
  by_cases hk : k = key
  · subst hk
    rw [upd_same]
    constructor
    · rintro (⟨_, rfl⟩ | ⟨h1, _⟩)
      · rfl
      · exact absurd rfl h1
    · intro e; exact .inl ⟨rfl, (Option.some.inj e).symm⟩
  · rw [upd_of_ne _ _ hk, ← h k v]
    constructor
    · rintro (⟨h1, _⟩ | ⟨_, h1⟩)
      · exact absurd h1 hk
      · exact h1
    · intro h1; exact .inr ⟨hk, h1⟩

theorem Contents.del1 {t t' : T} {M : Map} {key : Key} (h : Contents t M) (hu : Del1 t t' key) :
    Contents t' (upd M key none) := by
  intro k v
  rw [hu k v]
  by_cases hk : k = key
  · subst hk
    rw [upd_same]
    simp
  · rw [upd_of_ne _ _ hk, ← h k v]
    constructor
    · exact fun h1 => h1.2
    · exact fun h1 => ⟨hk, h1⟩

/-- The number of keys. -/
def Keys (t : T) (n : Int) : Prop := ∃ l : List Key, l.Nodup ∧ (∀ k, k ∈ l ↔ ∃ v, t.Has k v) ∧ n = l.length

theorem Keys.upd1 {t t' : T} {key : Key} {val : Word} {n i : Int} (h : Keys t n) (hu : Upd1 t t' key val)
    (hi : (i = 1 ∧ ∀ v, ¬ t.Has key v) ∨ (i = 0 ∧ ∃ v, t.Has key v)) : Keys t' (n + i) := by
  obtain ⟨l, h1, h2, h3⟩ := h
  rcases hi with ⟨rfl, hn⟩ | ⟨rfl, v0, hv⟩
  · refine ⟨key :: l, List.nodup_cons.2 ⟨?_, h1⟩, ?_, by rw [h3]; simp⟩
    · rw [h2]; rintro ⟨v, hv⟩; exact hn v hv
    · intro k
      rw [List.mem_cons, h2]
      constructor
      · rintro (rfl | ⟨v, hv⟩)
        · exact ⟨val, (hu _ _).2 (.inl ⟨rfl, rfl⟩)⟩
        · by_cases hk : k = key
          · exact ⟨val, (hu _ _).2 (.inl ⟨hk, rfl⟩)⟩
          · exact ⟨v, (hu _ _).2 (.inr ⟨hk, hv⟩)⟩
      · rintro ⟨v, hv⟩
        rcases (hu _ _).1 hv with ⟨h, _⟩ | ⟨_, h⟩
        · exact .inl h
        · exact .inr ⟨v, h⟩
  · refine ⟨l, h1, ?_, by rw [h3]; simp⟩
    intro k
    rw [h2]
    constructor
    · rintro ⟨v, hv⟩
      by_cases hk : k = key
      · exact ⟨val, (hu _ _).2 (.inl ⟨hk, rfl⟩)⟩
      · exact ⟨v, (hu _ _).2 (.inr ⟨hk, hv⟩)⟩
    · rintro ⟨v, hv⟩
      rcases (hu _ _).1 hv with ⟨rfl, _⟩ | ⟨_, h⟩
      · exact ⟨v0, by assumption⟩
      · exact ⟨v, h⟩

theorem Keys.del1 {t t' : T} {key : Key} {n : Int} (h : Keys t n) (hu : Del1 t t' key) (hv : ∃ v, t.Has key v) : Keys t' (n + -1) := by
  obtain ⟨l, h1, h2, h3⟩ := h
  have hm : key ∈ l := (h2 key).2 hv
  refine ⟨l.erase key, h1.erase key, ?_, ?_⟩
  · intro k
    rw [h1.mem_erase_iff, h2]
    constructor
    · rintro ⟨h, v, hv⟩; exact ⟨v, (hu _ _).2 ⟨h, hv⟩⟩
    · rintro ⟨v, hv⟩
      have := (hu _ _).1 hv
      exact ⟨this.1, v, this.2⟩
  · have := List.length_pos_of_mem hm
    rw [List.length_erase_of_mem hm, h3]
    omega

section
variable {env : Env} {s : Sys} {σ : Spec} {t : T} {seen : Nat → T → Prop} (hI : Inv env s σ t seen) {a : Nat}
include hI

/-- A step of `Finalize` from `t` to `t'`: building new nodes (`t' = t`), or publishing a change. -/
theorem Inv.publish {st' : St} {t' : T} {p' : Proc} {σ' : Spec} {Q : Nat → Nat} {L : List Nat} (hact : (s.proc a).active = true)
    (htail : (s.proc a).tail? = none) (hact' : p'.active = true) (hunl : p'.unl = (s.proc a).unl)
    (hpub : PubEff env.P s.st st' t t' s.pend (s.set a st' p').pend Q L)
    (hQ : ∀ x, 0 < Q x → 0 < (s.proc a).priv x) (hlist : L = [] ∨ ∃ tl, p'.tail? = some tl ∧ L = tl.unl.list)
    (hnew : ∀ x, 0 < p'.priv x → 0 < freeP (availNow s.st) s.st x)
    (hcopy : ∀ b, b ≠ a → ∀ x, 0 < t.cover x → 0 < (s.proc b).copied x → st'.mem x = s.st.mem x)
    (hcont : Contents t' σ'.map) (hw1 : ∀ b, ∀ M ∈ σ.window b, M ∈ σ'.window b)
    (hw2 : ∀ b, (s.proc b).active = true → ∃ M ∈ σ'.window b, Contents t' M) (hkeys : Keys t' (s.st.total + s.items + p'.items))
    (hroot : t.isNode = false → (s.proc a).unl = .root ∨ t' = t)
    (hpa : PInv env (s.set a st' p') t' (fun t1 => seen a t1 ∨ t1 = t') p') :
    Inv env (s.set a st' p') σ' t' (fun b t1 => seen b t1 ∨ t1 = t') := by
  have ha := hI.lt_of_active hact
  have hm := hI.mem
  have hbump : ∀ b, b ≠ a → (s.set a st' p').proc b = s.proc b := fun b hb => Sys.set_other _ _ _ _ hb
  have hactive : ∀ b, ((s.set a st' p').proc b).active = (s.proc b).active := by
    intro b
    by_cases hb : b = a
    · subst hb; rw [Sys.set_self, hact, hact']
    · rw [hbump b hb]
  have hunls : ∀ b, ((s.set a st' p').proc b).unl = (s.proc b).unl := by
    intro b
    by_cases hb : b = a
    · subst hb; rw [Sys.set_self, hunl]
    · rw [hbump b hb]
  have hitems : (s.set a st' p').items = s.items + p'.items := by
    have := items_step (s := s) (s' := s.set a st' p') ha hpub.nalloc hbump
    rw [Proc.items_none htail, Sys.set_self] at this
    simpa using this
  have hlist' : ∀ n ∈ L, n ∈ (s.proc a).unl.list := by
    intro n hn
    rcases hlist with rfl | ⟨tl, h1, rfl⟩
    · simp at hn
    · rw [← hunl, Proc.unl_of_tail h1]; exact hn
  have hL : LInv (s.set a st' p') := hI.locks.same hpub.locks hpub.rootLock hunls
  have he : Evo s (s.set a st' p') t t' L := by
    refine ⟨fun n => ?_, ?_, hpub.stable, ?_, hpub.baNext, hpub.nblocks⟩
    · rw [Sys.set_st, gen_of_locks hpub.locks]; exact Int.le_refl _
    · rintro n _ ⟨b, tl1, h1, h2⟩
      have hb : b ≠ a := by rintro rfl; rw [htail] at h1; cases h1
      exact ⟨b, tl1, by rw [hbump b hb]; exact h1, h2⟩
    · intro n hn
      rcases hlist with rfl | ⟨tl, h1, rfl⟩
      · simp at hn
      · exact ⟨a, tl, by rw [Sys.set_self]; exact h1, n, hn, sameLock_refl _⟩
  have hav : ∀ b, (s.proc b).active = true → ∀ t1, seen b t1 → ∀ x, 0 < t1.cover x → freeP (availNow s.st) s.st x = 0 := by
    intro b hb t1 ht1 x hx
    have h1 := (hm.ok b t1 hb ht1).prot x hx
    have h2 := freeP_mono (p := availNow s.st) (q := fun e => decide (e < s.st.resv b)) (by
      intro e he
      have := minReservation_le (hI.lt_of_active hb)
      simp only [availNow, decide_eq_true_eq] at he ⊢
      omega) s.st x
    omega
  have htrail : ∀ b t0 q n pfx big ch, (s.proc b).active = true → (seen b t0 ∨ t0 = t') → At t0 q (.node n pfx big ch) →
      Trail st' t' (fun t1 => seen b t1 ∨ t1 = t') q n pfx big ch := by
    intro b t0 q n pfx big ch hb h0 hat
    rcases h0 with h0 | rfl
    · rcases hm.trail b t0 q n pfx big ch hb h0 hat with ⟨ch1, g1, g2⟩ | ⟨t1, ch1, g1, g2, g3, g4, g5⟩
      · rcases hpub.keep q n pfx big ch1 g1 with ⟨ch2, g3, g4⟩ | g3
        · exact .inl ⟨ch2, by simpa using g3, g2.trans g4⟩
        · refine .inr ⟨t, ch1, .inl (hm.now b hb), g1, g2, ?_, ?_⟩
          · refine ((g1.repr hm.core.repr).1).congr ?_
            intro x hx1 hx2
            exact hpub.mem x (hav b hb t (hm.now b hb) x (g1.cover_node hx1 hx2)) (g3 x hx1 hx2)
          · intro x hx1 hx2
            exact g3 x hx1 (by rw [g2.nodeSize]; exact hx2)
      · have hz : ∀ x, n ≤ x → x < n + nodeSize pfx big ch → freeP (availNow s.st) s.st x = 0 ∧ t'.cover x = 0 := by
          intro x hx1 hx2
          have h1 := hav b hb t1 g1 x (g2.cover_node hx1 (by rw [g3.nodeSize]; exact hx2))
          refine ⟨h1, ?_⟩
          by_cases hc : t'.cover x = 0
          · exact hc
          · have h2 := hQ x (hpub.new x (by omega) (g5 x hx1 hx2))
            have h3 := hm.priv a b t1 hb g1 x h2
            have h4 := g2.cover_node hx1 (by rw [g3.nodeSize]; exact hx2)
            omega
        refine .inr ⟨t1, ch1, .inl g1, g2, g3, ?_, fun x hx1 hx2 => (hz x hx1 hx2).2⟩
        refine g4.congr ?_
        intro x hx1 hx2
        obtain ⟨e1, e2⟩ := hz x hx1 (by rw [← g3.nodeSize]; exact hx2)
        exact hpub.mem x e1 e2
    · exact .inl ⟨ch, hat, .refl _ _⟩
  have hsz : ∀ {q n pfx big ch}, At t' q (.node n pfx big ch) → n < n + nodeSize pfx big ch := by
    intro q n pfx big ch hat
    have := nodeSize_pos (hat.wf hpub.core.wf)
    omega
  have huniq1 : ∀ b t0 q0 n pfx big ch q1 pfx1 big1 ch1, (s.proc b).active = true → (seen b t0 ∨ t0 = t') →
      At t0 q0 (.node n pfx big ch) → At t' q1 (.node n pfx1 big1 ch1) → q0 = q1 := by
    intro b t0 q0 n pfx big ch q1 pfx1 big1 ch1 hb h0 hat hat1
    rcases htrail b t0 q0 n pfx big ch hb h0 hat with ⟨ch2, g1, _⟩ | ⟨t1, ch2, _, g2, g3, _, g5⟩
    · refine At.inj (x := n) ?_ g1 (Nat.le_refl _) (hsz g1) hat1 (Nat.le_refl _) (hsz hat1)
      have := hpub.core.sep n; omega
    · exfalso
      have h1 := hat1.cover_node (x := n) (Nat.le_refl _) (hsz hat1)
      have h2 := g5 n (Nat.le_refl _) (by
        have hwf0 : t0.WF env.P [] := by
          rcases h0 with h0 | rfl
          · exact (hm.ok b t0 hb h0).wf
          · exact hpub.core.wf
        have := nodeSize_pos (hat.wf hwf0); omega)
      omega
  have hoff' : ∀ b, (s.set a st' p').st.nalloc ≤ b → (s.set a st' p').proc b = .idle := by
    intro b hb
    have hb' : s.st.nalloc ≤ b := by rw [← hpub.nalloc]; exact hb
    rw [hbump b (by omega)]
    exact hm.off b hb'
  refine ⟨hL, ⟨hpub.core, hoff', hcont, ?_, ?_, ?_, ?_, ?_, ?_, ?_, ?_, ?_, ?_⟩, ?_⟩
  · intro b hb
    rw [hactive] at hb
    rw [Sys.set_st, hpub.resv]
    exact hm.idle b hb
  · intro b e c hb
    by_cases hba : b = a
    · subst hba
      rw [Sys.set_self] at hb
      rw [hb] at hact'; simp [Proc.active] at hact'
    · rw [hbump b hba] at hb
      rw [Sys.set_st, hpub.epoch]
      exact hm.arm b e c hb
  · intro b _; exact .inr rfl
  · intro b hb
    rw [hactive] at hb
    rw [Sys.set_st, hpub.epoch, hpub.resv]
    exact hm.resv b hb
  · intro b t1 hb ht1
    rw [hactive] at hb
    rw [Sys.set_st, hpub.resv]
    rcases ht1 with ht1 | rfl
    · have hok := hm.ok b t1 hb ht1
      refine ⟨hok.wf, hok.inb.mono hpub.baNext, fun x hx => ?_⟩
      have h1 := hok.prot x hx
      have h2 := hpub.free (fun e => decide (e < s.st.resv b)) x
      omega
    · refine ⟨hpub.core.wf, hpub.core.inb, fun x hx => ?_⟩
      have h1 := hpub.core.sep x
      have h2 := freeP_le (fun e => decide (e < s.st.resv b)) st' x
      omega
  · intro b t1 hb ht1
    rw [hactive] at hb
    rcases ht1 with ht1 | rfl
    · obtain ⟨M, h1, h2⟩ := hm.win b t1 hb ht1
      exact ⟨M, hw1 b M h1, h2⟩
    · exact hw2 b hb
  · intro b t0 q n pfx big ch hb h0 hat
    rw [hactive] at hb
    exact htrail b t0 q n pfx big ch hb h0 hat
  · intro b t1 t2 q1 q2 n pfx1 big1 ch1 pfx2 big2 ch2 hb h1 h2 hat1 hat2
    rw [hactive] at hb
    by_cases e2 : t2 = t'
    · subst e2
      exact huniq1 b t1 q1 n pfx1 big1 ch1 q2 pfx2 big2 ch2 hb h1 hat1 hat2
    · by_cases e1 : t1 = t'
      · subst e1
        exact (huniq1 b t2 q2 n pfx2 big2 ch2 q1 pfx1 big1 ch1 hb h2 hat2 hat1).symm
      · exact hm.uniq b t1 t2 q1 q2 n pfx1 big1 ch1 pfx2 big2 ch2 hb (h1.resolve_right e1) (h2.resolve_right e2) hat1 hat2
  · obtain ⟨l, g1, g2, g3⟩ := hkeys
    refine ⟨l, g1, g2, ?_⟩
    rw [hitems, Sys.set_st, hpub.total, ← g3]
    omega
  · intro c b t1 hb ht1 x hx
    rw [hactive] at hb
    rcases ht1 with ht1 | rfl
    · by_cases hc : c = a
      · subst hc
        rw [Sys.set_self] at hx
        have h1 := hnew x hx
        by_cases h2 : t1.cover x = 0
        · exact h2
        · have := hav b hb t1 ht1 x (by omega)
          omega
      · rw [hbump c hc] at hx
        exact hm.priv c b t1 hb ht1 x hx
    · have h1 := Sys.priv_le hoff' c x
      have h2 := hpub.core.sep x
      omega
  · intro b
    by_cases hb : b = a
    · subst hb
      rw [Sys.set_self]
      exact hpa
    · rw [hbump b hb]
      refine he.proc (fun t1 h => .inl h) hm.core hpub.core.repr ?_ ?_ ?_ (hI.proc b)
      · rintro x (hx | ⟨hx1, hx2⟩)
        · refine hpub.mem x ?_ ?_
          · have h1 := Sys.priv_le hm.off b x
            have h2 := hm.core.sep x
            have h3 := freeP_le (availNow s.st) s.st x
            omega
          · have h1 := Sys.priv_le hoff' b x
            rw [hbump b hb] at h1
            have h2 := hpub.core.sep x
            omega
        · exact hcopy b hb x hx1 hx2
      · intro n hn hn'
        exact hI.locks.excl b a hb n hn n (hlist' n hn') (sameLock_refl _)
      · intro hr hn
        rcases hroot hn with h1 | h1
        · rcases hI.locks.root with ⟨_, g⟩ | ⟨_, c, _, g⟩
          · exact absurd h1 (g a)
          · exact absurd ((g b hr).trans (g a h1).symm) hb
        · exact h1

omit hI in
/-- What an operation that is not running has seen does not matter. -/
theorem Inv.congr_seen {seen' : Nat → T → Prop} (hI : Inv env s σ t seen)
    (h : ∀ b, (s.proc b).active = true → ∀ x, seen' b x ↔ seen b x) : Inv env s σ t seen' := by
  have h' : ∀ b, (s.proc b).active = true → seen' b = seen b := fun b hb => funext fun x => propext (h b hb x)
  have hm := hI.mem
  refine ⟨hI.locks, ⟨hm.core, hm.off, hm.content, hm.idle, hm.arm, ?_, hm.resv, ?_, ?_, ?_, ?_, hm.count, ?_⟩, ?_⟩
  · intro b hb; rw [h' b hb]; exact hm.now b hb
  · intro b t1 hb; rw [h' b hb]; exact hm.ok b t1 hb
  · intro b t1 hb; rw [h' b hb]; exact hm.win b t1 hb
  · intro b t1 q n pfx big ch hb; rw [h' b hb]; exact hm.trail b t1 q n pfx big ch hb
  · intro b t1 t2 q1 q2 n pfx1 big1 ch1 pfx2 big2 ch2 hb; rw [h' b hb]; exact hm.uniq b t1 t2 q1 q2 n pfx1 big1 ch1 pfx2 big2 ch2 hb
  · intro b c t1 hc; rw [h' c hc]; exact hm.priv b c t1 hc
  · intro b
    cases hb : (s.proc b).active with
    | true => rw [h' b hb]; exact hI.proc b
    | false =>
      have hP := hI.proc b
      revert hP hb
      cases s.proc b <;> simp [Proc.active, PInv]

/-! ## From the knowledge of a prepared operation to the facts its `Finalize` relies on -/

theorem nodeAt_of {p : Pos} {q : Key} {n pfx big ch b} (hat : At t q (.node n pfx big ch)) (hr : p.raw = wordOf b (.node n pfx big ch))
    (hu : HoldUp t p q) : ∃ C, pathOf C = q ∧ NodeAt t C n p.parent p.nodePtr p.raw pfx big ch := by
  have hc := hI.mem.core
  rcases hu with ⟨h1, h2, rfl, h4⟩ | ⟨h1, q0, pfx0, big0, ch0, c, g1, rfl, g3, g4, g5⟩
  · have e := hat.inv_nil
    exact ⟨[], rfl, ⟨e.symm, by simp [Norm], by rw [h2]; rfl, by rw [h1]; rfl, by rw [h4]; rfl⟩⟩
  · obtain ⟨D, e1, e2⟩ := g1.ctx
    have hch : ch0 c = .node n pfx big ch := (g1.child c).det hat
    refine ⟨D ++ [⟨p.parent, pfx0, big0, ch0, c⟩], by simp [pathOf, e2], ?_, ?_, ?_, ?_, ?_⟩
    · rw [plug_child, ← hch, upd_self, ← e1]
    · intro f hf
      obtain rfl : f = ⟨p.parent, pfx0, big0, ch0, c⟩ := by simpa using hf.symm
      exact hch
    · rw [g3]; simp [holePtr]
    · simp [holeParent]
    · rw [g5]
      have : keyByte (wordOf c (ch0 c)) = c := keyByte_wordOf hc.bn ((g1.inBlocks hc.inb).2 c) (by rw [hch]; rfl)
      rw [this]; simp [holeByte]

theorem upd_factAt {op : UpdOp} {q : Key} {pfx big ch} (hk : UKnow env t op q pfx big ch) (hu : HoldUp t op.pos q) :
    ∃ C, pathOf C = q ∧ UFactAt env.P t op C pfx big ch := by
  obtain ⟨b, hb⟩ := hk.raw
  obtain ⟨C, rfl, hna⟩ := nodeAt_of hI (p := op.pos) hk.at' hb hu
  have hat : UAt t op C pfx big ch := ⟨hna, hk.count, hk.pre, hk.slots, hk.data⟩
  refine ⟨C, rfl, ?_⟩
  unfold UFactAt
  rcases hk.kind with ⟨e, p1, kb, p2, ka, rest, h1, h2, h3, h4, h5⟩ | ⟨⟨h1, h2⟩, h⟩
  · rw [e]
    exact ⟨hat, p1, kb, p2, ka, rest, h1, h2, h3, h4, h5⟩
  · have hin : UIn t op C pfx big ch := ⟨hat, h1, h2⟩
    rcases h with ⟨e, rfl, h3, h4⟩ | ⟨e, rfl, h3, h4⟩ | ⟨e, lk, lv, h3, h4, h5, h6, h7, h8⟩
    · rw [e]; exact ⟨rfl, hin, h3, h4⟩
    · rw [e]; exact ⟨rfl, hin, h3, h4⟩
    · rw [e]
      have hl : ULeaf env.P t op C pfx big ch lk lv := ⟨hin, h3, h4, h5, h6, h7, h8⟩
      cases big with
      | true => exact ⟨rfl, lk, lv, hl⟩
      | false => exact ⟨rfl, lk, lv, hl⟩

theorem upd_fact {op : UpdOp} {q : Key} {pfx big ch} (hk : UKnow env t op q pfx big ch) (hu : HoldUp t op.pos q) :
    UFact env.P t op := by
  obtain ⟨C, _, h⟩ := upd_factAt hI hk hu
  exact h.fact

omit hI in
theorem root_factAt {op : UpdOp} (hr : op.kind.isRoot = true) (h : UFact env.P t op) (C : Ctx) (pfx : List UInt8) (big : Bool)
    (ch : UInt8 → T) : UFactAt env.P t op C pfx big ch := by
  unfold UFact at h
  unfold UFactAt
  unfold UKind.isRoot at hr
  split at hr <;> simp_all

omit hI in
theorem leafWord_hole (C : Ctx) (lk : Key) (lv : Word) : leafWord (pathOf C) lk lv = holeWord C (.leaf lk lv) := by
  rcases ctx_cases C with rfl | ⟨D, f, rfl⟩
  · rfl
  · simp [leafWord, holeWord, pathOf]

theorem del_factAt {op : DelOp} {key q : Key} {pfx ch} (hk : DKnow t op key q pfx ch) (hu : HoldUp t op.pos q) (big2 : Bool)
    (kids : UInt8 → T) : ∃ C, pathOf C = q ∧ DFactAt t op key C pfx ch big2 kids := by
  obtain ⟨b, hb⟩ := hk.raw
  obtain ⟨C, rfl, hna⟩ := nodeAt_of hI (p := op.pos) hk.at' hb hu
  refine ⟨C, rfl, ?_⟩
  unfold DFactAt
  rcases hk.kind with ⟨e, k, lk, lv, h1, h2, h3, h4, h5, h6, h7⟩ | ⟨e, k, k2, lk, lv, lk2, lv2, rfl, h2, h3, h4, h5⟩
  · rw [e]
    exact ⟨k, lk, lv, hna, h1, h2, h3, h4, h5, hk.slots, h6, h7⟩
  · rw [e]
    refine ⟨k, k2, lk, lv, lk2, lv2, rfl, hna, h2, h3, h4, hk.slots, ?_⟩
    intro e
    rw [h5 e]; exact leafWord_hole C lk2 lv2

theorem del_fact {op : DelOp} {key q : Key} {pfx ch} (hk : DKnow t op key q pfx ch) (hu : HoldUp t op.pos q) : DFact t op key := by
  obtain ⟨C, _, h⟩ := del_factAt hI hk hu false ch
  exact h.fact

theorem merge_factAt {op : DelOp} {key q : Key} {pfx k k2 lk lv pfx2 big2 kids} (he : op.kind = .replaceNodeWithNode)
    (hk : DMerge t op q pfx k k2 lk lv pfx2 big2 kids)
    (hu : HoldUp t op.pos q) (h1 : op.prefixSlots = prefixSlots pfx2.length) (h2 : op.pfx = pfx ++ k2 :: pfx2)
    (h3 : op.data = ⟨op.child, blockSlots - op.child % blockSlots⟩) :
    ∃ C, pathOf C = q ∧ DFactAt t op key C pfx (ch2 k (.leaf lk lv) k2 (.node op.child pfx2 big2 kids)) big2 kids := by
  obtain ⟨b, hb⟩ := hk.raw
  obtain ⟨C, rfl, hna⟩ := nodeAt_of hI (p := op.pos) hk.at' hb hu
  refine ⟨C, rfl, ?_⟩
  unfold DFactAt
  rw [he]
  exact ⟨k, k2, lk, lv, pfx2, rfl, hna, hk.ne, hk.value, hk.count, h1, h2, h3⟩

theorem merge_fact {op : DelOp} {key q : Key} {pfx k k2 lk lv pfx2 big2 kids} (he : op.kind = .replaceNodeWithNode)
    (hk : DMerge t op q pfx k k2 lk lv pfx2 big2 kids)
    (hu : HoldUp t op.pos q) (h1 : op.prefixSlots = prefixSlots pfx2.length) (h2 : op.pfx = pfx ++ k2 :: pfx2)
    (h3 : op.data = ⟨op.child, blockSlots - op.child % blockSlots⟩) : DFact t op key := by
  obtain ⟨C, _, h⟩ := merge_factAt (key := key) hI he hk hu h1 h2 h3
  exact h.fact

omit hI in
theorem At.isNode {t q n pfx big ch} (h : At t q (.node n pfx big ch)) : t.isNode = true := by
  cases t with
  | empty => have := h.inv_empty; simp at this
  | leaf => have := h.inv_leaf; simp at this
  | node => rfl

/-! ## Updates -/

theorem held_upd {found : Bool} {op : UpdOp} (hp : s.proc a = .upd (.held found op)) :
    env.keys op.key ∧ UFact env.P t op ∧ (t.isNode = false → op.unl = .root) := by
  have hP := hI.proc a
  rw [hp] at hP
  obtain ⟨h1, _, _, ⟨h2, h3⟩ | ⟨h2, q, pfx, big, ch, h3, h4⟩⟩ := hP
  · refine ⟨h1, h3, fun _ => ?_⟩
    unfold UKind.isRoot at h2
    unfold UpdOp.unl
    split at h2 <;> simp_all
  · exact ⟨h1, upd_fact hI h3 h4, fun hn => by rw [h3.at'.isNode] at hn; cases hn⟩

/-! ## Deletes -/

theorem held_del {cur : DelCur} (hp : s.proc a = .del (.held cur)) :
    DFact t cur.op cur.key ∧ (t.isNode = false → cur.op.unl = .root ∨ cur.op.kind = .deleteLeaf256) ∧
      (∀ c n p, cur.op.unl = .three c n p → n ≠ 0) := by
  have hP := hI.proc a
  rw [hp] at hP
  have hnz : ∀ {q n pfx big ch}, At t q (.node n pfx big ch) → n ≠ 0 := by
    intro q n pfx big ch h
    have := (h.inBlocks hI.mem.core.inb).1.1
    omega
  obtain ⟨_, ⟨h1, h2⟩ | ⟨h1, q, pfx, ch, h2, h3⟩ | ⟨h1, q, pfx, k, k2, lk, lv, pfx2, big2, kids, h2, h3, h4, h5, h6⟩ | ⟨h1, h2, h3, h4⟩⟩ := hP
  · refine ⟨h2, fun _ => .inl (by simp [DelOp.unl, h1]), ?_⟩
    intro c n p e
    simp [DelOp.unl, h1] at e
  · refine ⟨del_fact hI h2 h3, fun hn => by (rw [h2.at'.isNode] at hn; cases hn), ?_⟩
    intro c n p e
    rcases h1 with h1 | h1 <;> simp [DelOp.unl, h1] at e
  · refine ⟨merge_fact hI h1 h2 h3 h4 h5 h6, fun hn => by (rw [h2.at'.isNode] at hn; cases hn), ?_⟩
    intro c n p e
    simp only [DelOp.unl, h1, Unlock.three.injEq] at e
    rw [← e.2.1]
    exact hnz h2.at'
  · refine ⟨by unfold DFact; rw [h1]; exact ⟨h2, h3⟩, fun _ => .inr h1, ?_⟩
    intro c n p e
    simp [DelOp.unl, h1] at e

end

end Radix
