import Verif.Sys.Seq
import Verif.Sys.Call
/-!
# What the invariant says about the map
-/
namespace Radix

/-- The search depends on memory, root and number of blocks only. -/
theorem search_congr {st st' : St} (hm : st'.mem = st.mem) (hr : st'.root = st.root) (hb : st'.nblocks = st.nblocks) (key : Key) :
    Radix.search st' key = Radix.search st key := by
  have e1 : ∀ n, st'.nodeData n = st.nodeData n := fun n => by unfold St.nodeData; rw [hb]
  have e2 : ∀ fuel raw depth, searchLoop st' key fuel raw depth = searchLoop st key fuel raw depth := by
    intro fuel
    induction fuel with
    | zero => intros; rfl
    | succ fuel ih =>
      intro raw depth
      unfold searchLoop
      rw [e1, hm]
      simp only [ih]
  unfold Radix.search
  rw [hr, e2]
open T

theorem Contents.none_iff {t : T} {M : Map} (h : Contents t M) {key : Key} : M key = none ↔ ∀ v, ¬ t.Has key v := by
  constructor
  · intro h1 v hv
    rw [(h key v).1 hv] at h1
    cases h1
  · intro h1
    cases hm : M key with
    | none => rfl
    | some v => exact absurd ((h key v).2 hm) (h1 v)

theorem Contents.some_iff {t : T} {M : Map} (h : Contents t M) {key : Key} : M key ≠ none ↔ ∃ v, t.Has key v := by
  rw [Ne, h.none_iff]
  constructor
  · intro h1
    apply Classical.byContradiction
    intro h2
    exact h1 fun v hv => h2 ⟨v, hv⟩
  · rintro ⟨v, hv⟩ h1
    exact h1 v hv

section
variable {env : Env} {s : Sys} {σ : Spec} {t : T} {seen : Nat → T → Prop} (hI : Inv env s σ t seen)
include hI

theorem Inv.has {k : Key} {v : Word} (h : t.Has k v) : env.P k v := (hI.mem.core.wf.has h).2

theorem Inv.stored {k : Key} {v : Word} (h : σ.map k = some v) : env.P k v := hI.has ((hI.mem.content k v).2 h)

/-- Result of a search, in terms of the map. -/
theorem Inv.search {st' : St} (hm : st'.mem = s.st.mem) (hr : st'.root = s.st.root) (hb : st'.nblocks = s.st.nblocks) {key : Key} (hk : key ≠ [])
    (hnb : σ.map key = none → 0 < s.st.nblocks) :
    ∃ r, Radix.search st' key = .ok r ∧ (∀ v, r = some v → ∃ k', σ.map k' = some v ∧ env.fetch v = k' ∧ (σ.map key ≠ none → k' = key)) ∧
      (r = none → σ.map key = none) := by
  have e := search_congr hm hr hb key
  obtain ⟨r, h1, h2⟩ := search_tree (key := key) hI.mem.core (by
    rintro rfl
    exact hnb (hI.mem.content.none_iff.2 fun _ h => h)) hk
  refine ⟨r, e ▸ h1, ?_, fun h => hI.mem.content.none_iff.2 (h2.miss h)⟩
  intro v hv
  obtain ⟨lk, lv, h3, rfl, h5⟩ := h2.hit v hv
  have hP := hI.has h3
  rw [hP.2.2]
  refine ⟨lk, (hI.mem.content _ _).1 h3, hP.2.1, fun h => ?_⟩
  obtain ⟨v', hv'⟩ := hI.mem.content.some_iff.1 h
  exact h5 v' hv'

/-- What lookups read is the map. -/
theorem Inv.contents {key : Key} (hk : key ≠ []) : content env.fetch s.st key = σ.map key := by
  unfold content
  by_cases hnb : σ.map key = none → 0 < s.st.nblocks
  · obtain ⟨r, h1, h2, h3⟩ := hI.search rfl rfl rfl hk hnb
    rw [h1]
    cases r with
    | none => exact (h3 rfl).symm
    | some v =>
      obtain ⟨k', g1, g2, g3⟩ := h2 v rfl
      simp only
      split
      · rename_i h
        rw [← h, g2, g1]
      · rename_i h
        cases hm : σ.map key with
        | none => rfl
        | some v' => exact absurd (g2.trans (g3 (by rw [hm]; simp))) h
  · have h0 : σ.map key = none ∧ ¬ 0 < s.st.nblocks := Classical.not_imp.1 hnb
    rw [h0.1]
    split
    · rename_i v hv
      split
      · rename_i hf
        exfalso
        -- no block, so the tree is empty or a leaf
        have hc := hI.mem.core
        by_cases ht : t = .empty
        · subst ht
          unfold Radix.search at hv
          rw [hc.root] at hv
          have e5 : isLeaf 0 = false := by decide
          simp only [rootWord, e5, Bool.false_eq_true, if_false, searchLoop, St.nodeData] at hv
          have e6 : ¬ nodeAddr 0 / blockSlots < s.st.nblocks := by
            have : nodeAddr 0 / blockSlots = 0 := by decide
            omega
          simp only [e6, if_false, bind, Except.bind] at hv
          cases hv
        · obtain ⟨r, h1, h2⟩ := search_tree (key := key) hc (fun h => absurd h ht) hk
          rw [hv] at h1
          obtain rfl := Except.ok.inj h1
          obtain ⟨lk, lv, h3, h4, _⟩ := h2.hit v rfl
          have hP := hI.has h3
          have : lk = key := by rw [← hf, h4, hP.2.2, hP.2.1]
          rw [this] at h3
          exact hI.mem.content.none_iff.1 h0.1 _ h3
      · rfl
    · rfl

/-! ## Candidates -/

theorem Inv.candK {a : Nat} {key : Key} {v : Word} (hact : (s.proc a).active = true) (h : CandK (seen a) key v) :
    ∃ M ∈ σ.window a, ∃ k', M k' = some v ∧ env.fetch v = k' ∧ ((∀ M ∈ σ.window a, M key ≠ none) → k' = key) := by
  obtain ⟨t1, lk, lv, h1, h2, rfl, h4⟩ := h
  obtain ⟨M, hM, hc⟩ := hI.mem.win a t1 hact h1
  have hP : env.P lk lv := ((hI.mem.ok a t1 hact h1).wf.has h2).2
  rw [hP.2.2]
  refine ⟨M, hM, lk, (hc _ _).1 h2, hP.2.1, fun hall => h4 fun t2 ht2 => ?_⟩
  obtain ⟨M2, hM2, hc2⟩ := hI.mem.win a t2 hact ht2
  exact hc2.some_iff.1 (hall M2 hM2)

theorem Inv.cand {a : Nat} {v : Word} (hact : (s.proc a).active = true) (h : Cand (seen a) v) :
    ∃ M ∈ σ.window a, ∃ k', M k' = some v ∧ env.fetch v = k' := by
  obtain ⟨t1, lk, lv, h1, h2, rfl⟩ := h
  obtain ⟨M, hM, hc⟩ := hI.mem.win a t1 hact h1
  have hP : env.P lk lv := ((hI.mem.ok a t1 hact h1).wf.has h2).2
  rw [hP.2.2]
  exact ⟨M, hM, lk, (hc _ _).1 h2, hP.2.1⟩

theorem Inv.absent {a : Nat} {key : Key} (hact : (s.proc a).active = true) (h : Absent (seen a) key) :
    ∃ M ∈ σ.window a, M key = none := by
  obtain ⟨t1, h1, h2⟩ := h
  obtain ⟨M, hM, hc⟩ := hI.mem.win a t1 hact h1
  exact ⟨M, hM, hc.none_iff.2 h2⟩

/-! ## Prepared updates -/

/-- In the tree, a key that goes through this node is below the child of its byte. -/
theorem Inv.below {q : Key} {n pfx big ch} {key : Key} {k : UInt8} {v : Word} (hat : At t q (.node n pfx big ch)) (hk : q ++ pfx ++ [k] <+: key)
    (h : t.Has key v) : (ch k).Has key v := by
  obtain ⟨C, rfl, rfl⟩ := hat.ctx
  have hwf : (plug C (.node n pfx big ch)).WF env.P [] := hI.mem.core.wf
  have hq : pathOf C <+: key := ((List.prefix_append _ _).trans (List.prefix_append _ _)).trans hk
  rcases (has_plug C _ key v).1 h with h1 | h1
  · exact absurd hq (by simpa using outside_not_prefix hwf h1)
  · obtain ⟨c, rest, h2, h3⟩ := has_child (by simpa using hat.wf hI.mem.core.wf) h1
    obtain ⟨r2, h4⟩ := hk
    have : c = k := by
      rw [h2, List.append_assoc] at h4
      have h5 := (List.append_cancel_left h4).symm
      simp only [List.cons_append, List.nil_append, List.cons.injEq] at h5
      exact h5.1
    exact this ▸ h3

theorem Inv.not_below {q : Key} {n pfx big ch} {key : Key} {v : Word} (hat : At t q (.node n pfx big ch)) {p1 p2 rest : List UInt8}
    {ka kb : UInt8} (hp : pfx = p1 ++ kb :: p2) (hk : key = q ++ p1 ++ ka :: rest) (hne : ka ≠ kb) : ¬ t.Has key v := by
  intro h
  obtain ⟨C, rfl, rfl⟩ := hat.ctx
  have hwf : (plug C (.node n pfx big ch)).WF env.P [] := hI.mem.core.wf
  rcases (has_plug C _ key v).1 h with h1 | h1
  · exact outside_not_prefix hwf h1 ⟨p1 ++ ka :: rest, by rw [hk]; simp⟩
  · obtain ⟨c, r, h2, _⟩ := has_child (by simpa using hat.wf hI.mem.core.wf) h1
    apply hne
    apply prefix_of_cons_eq (p := pathOf C ++ p1) (q := key) (r := rest) (s := p2 ++ c :: r)
    · rw [hk]; exact List.prefix_refl _
    · exact ⟨[], by rw [h2, hp]; simp⟩

theorem Inv.update_absent {a : Nat} {op : UpdOp} (hp : s.proc a = .upd (.held false op)) : σ.map op.key = none := by
  obtain ⟨_, hf, _⟩ := held_upd hI hp
  have hP := hI.proc a
  rw [hp] at hP
  have hfound : false = op.kind.found := hP.2.1
  rw [hI.mem.content.none_iff]
  intro v hv
  unfold UFact at hf
  cases hk : op.kind <;> simp only [hk] at hf <;> try (simp [hk, UKind.found] at hfound; done)
  · rw [hf.1] at hv; exact hv
  · obtain ⟨lk, lv, rfl, h1, h2, h3⟩ := hf
    obtain ⟨rfl, _⟩ := hv
    apply h3
    cases hkk : op.key <;> simp_all
  · obtain ⟨C, pfx, big, ch, p1, kb, p2, ka, rest, h1, h2, h3, h4, _⟩ := hf
    have e := h1.node.tree
    subst e
    exact hI.not_below (At_plug C _) h2 h3 h4 hv
  · obtain ⟨C, pfx, ch, h1, h2, _⟩ := hf
    have e := h1.node.tree
    subst e
    have := hI.below (At_plug C _) h1.path hv
    rw [h2] at this
    exact this
  · obtain ⟨C, pfx, ch, h1, h2, _⟩ := hf
    have e := h1.node.tree
    subst e
    have := hI.below (At_plug C _) h1.path hv
    rw [h2] at this
    exact this

theorem Inv.update_own {a : Nat} {op : UpdOp} {v : Word} (hp : s.proc a = .upd (.held true op)) (hm : σ.map op.key = some v) : op.value = v := by
  obtain ⟨_, hf, _⟩ := held_upd hI hp
  have hP := hI.proc a
  rw [hp] at hP
  have hfound : true = op.kind.found := hP.2.1
  have hv := (hI.mem.content _ _).2 hm
  have hPv := hI.has hv
  unfold UFact at hf
  cases hk : op.kind <;> simp only [hk] at hf <;> try (simp [hk, UKind.found] at hfound; done)
  · obtain ⟨lk, lv, rfl, h1, h2, h3, h4⟩ := hf
    obtain ⟨rfl, rfl⟩ := hv
    rw [h4, hPv.2.2]
  all_goals
    obtain ⟨C, pfx, ch, lk, lv, h1⟩ := hf
    have e := h1.node.tree
    subst e
    have h2 := hI.below (At_plug C _) h1.path hv
    rcases h1.child with h3 | ⟨_, h3⟩
    · rw [h3] at h2
      obtain ⟨_, rfl⟩ := h2
      rw [h1.value, hPv.2.2]
    · rw [h3] at h2
      exact h2.elim

/-! ## A single writer -/

end

/-- The form of a step. -/
theorem exec_shape {fetch : Word → Key} {s s' : Sys} {act : Act} {ev : Ev} (h : exec fetch s act = some (.ok (s', ev))) :
    (act = .block ∧ s'.proc = s.proc ∧ ev = .none) ∨
    ∃ a p', s'.proc = upd s.proc a p' ∧
      ((ev = .none ∧ (p'.active = true → p'.tail? = none → (s.proc a).active = true ∧ (s.proc a).tail? = none ∧ (s.proc a).writer = p'.writer)) ∨
      (∃ c, ev = .begun a c ∧ p' = c.start) ∨
      (((∃ k v, ev = .put k v) ∨ ∃ k, ev = .del k) ∧ p'.tail? ≠ none ∧ (s.proc a).writer = true)) := by
  cases act with
  | block =>
    simp only [exec] at h
    cases hs : s.st.blockStep with
    | error e => simp [hs, bind, Except.bind] at h
    | ok st' =>
      simp only [hs, bind, Except.bind, pure, Except.pure] at h
      injection h with h; injection h with h; injection h with h h'; subst h h'
      exact .inl ⟨rfl, rfl, rfl⟩
  | arm a =>
    simp only [exec] at h
    split at h
    · injection h with h; injection h with h; injection h with h h'; subst h h'
      exact .inr ⟨a, _, rfl, .inr (.inl ⟨_, rfl, rfl⟩)⟩
    · cases h
  | run a =>
    right
    simp only [exec] at h
    split at h
    case h_3 ph h1 h2 hp =>
      cases hs : stepU s.st ph with
      | error e => simp [hs, bind, Except.bind] at h
      | ok r =>
        simp only [hs, bind, Except.bind, pure, Except.pure] at h
        injection h with h; injection h with h; injection h with h h'; subst h h'
        refine ⟨a, _, rfl, .inl ⟨rfl, fun _ _ => ?_⟩⟩
        rw [hp]
        cases ph <;> first | exact ⟨rfl, rfl, rfl⟩ | exact absurd rfl (h2 _ _)
    case h_7 ph h0 h1 h2 hp =>
      cases hs : stepD s.st ph with
      | error e => simp [hs, bind, Except.bind] at h
      | ok r =>
        simp only [hs, bind, Except.bind, pure, Except.pure] at h
        injection h with h; injection h with h; injection h with h h'; subst h h'
        refine ⟨a, _, rfl, .inl ⟨rfl, fun _ _ => ?_⟩⟩
        rw [hp]
        cases ph <;> first | exact ⟨rfl, rfl, rfl⟩ | exact absurd rfl (h2 _ _)
    case h_9 ph _ hp =>
      cases hs : stepR s.st ph with
      | error e => simp [hs, bind, Except.bind] at h
      | ok ph' =>
        simp only [hs, bind, Except.bind, pure, Except.pure] at h
        injection h with h; injection h with h; injection h with h h'; subst h h'
        refine ⟨a, _, rfl, .inl ⟨rfl, fun _ _ => ?_⟩⟩
        rw [hp]
        exact ⟨rfl, rfl, rfl⟩
    all_goals cases h
  | publish a value =>
    right
    simp only [exec, bind, Except.bind, pure, Except.pure] at h
    split at h
    · rename_i hp
      injection h with h
      split at h
      · cases h
      · injection h with h; injection h with h h'; subst h h'
        refine ⟨a, _, rfl, ?_⟩
        split
        · refine .inr (.inr ⟨.inl ⟨_, _, rfl⟩, ?_, by rw [hp]; rfl⟩)
          simp [Proc.tail?]
        · exact .inl ⟨rfl, fun _ h => by simp [Proc.tail?] at h⟩
    · rename_i hp
      injection h with h
      split at h
      · cases h
      · injection h with h; injection h with h h'; subst h h'
        refine ⟨a, _, rfl, ?_⟩
        split
        · refine .inr (.inr ⟨.inr ⟨_, rfl⟩, ?_, by rw [hp]; rfl⟩)
          simp [Proc.tail?]
        · exact .inl ⟨rfl, fun _ h => by simp [Proc.tail?] at h⟩
    · cases h
  | build a value =>
    right
    simp only [exec, bind, Except.bind, pure, Except.pure] at h
    split at h
    · rename_i hp
      injection h with h
      split at h
      · cases h
      · injection h with h; injection h with h h'; subst h h'
        exact ⟨a, _, rfl, .inl ⟨rfl, fun _ _ => by rw [hp]; exact ⟨rfl, rfl, rfl⟩⟩⟩
    · rename_i hp
      split at h
      · cases h
      injection h with h
      split at h
      · cases h
      · injection h with h; injection h with h h'; subst h h'
        exact ⟨a, _, rfl, .inl ⟨rfl, fun _ _ => by rw [hp]; exact ⟨rfl, rfl, rfl⟩⟩⟩
    · cases h
  | commit a =>
    right
    simp only [exec] at h
    split at h
    · rename_i hp
      injection h with h; injection h with h; injection h with h h'; subst h h'
      refine ⟨a, _, rfl, ?_⟩
      split
      · refine .inr (.inr ⟨.inl ⟨_, _, rfl⟩, ?_, by rw [hp]; rfl⟩)
        simp [Proc.tail?]
      · exact .inl ⟨rfl, fun _ h => by simp [Proc.tail?] at h⟩
    · rename_i hp
      injection h with h; injection h with h; injection h with h h'; subst h h'
      refine ⟨a, _, rfl, ?_⟩
      split
      · refine .inr (.inr ⟨.inr ⟨_, rfl⟩, ?_, by rw [hp]; rfl⟩)
        simp [Proc.tail?]
      · exact .inl ⟨rfl, fun _ h => by simp [Proc.tail?] at h⟩
    · cases h
  | slip a =>
    obtain ⟨rfl, _, ⟨ph, ph', hp, hs, rfl⟩ | ⟨ph, ph', hp, hs, rfl⟩⟩ := exec_slip_ok h
    · refine .inr ⟨a, _, rfl, .inl ⟨rfl, fun _ _ => ?_⟩⟩
      rw [hp]
      cases ph <;> first | exact ⟨rfl, rfl, rfl⟩ | cases hs
    · refine .inr ⟨a, _, rfl, .inl ⟨rfl, fun _ _ => ?_⟩⟩
      rw [hp]
      cases ph <;> first | exact ⟨rfl, rfl, rfl⟩ | cases hs
  | unlock a =>
    obtain ⟨rfl, ⟨b, tl, u, st', hp, hs, rfl⟩ | ⟨b, tl, u, st', hp, hs, rfl⟩⟩ := exec_unlock_ok h <;>
      exact .inr ⟨a, _, rfl, .inl ⟨rfl, fun _ h => by simp [Proc.tail?] at h⟩⟩
  | quit a =>
    obtain ⟨rfl, ⟨f, op, hp, rfl⟩ | ⟨cur, hp, rfl⟩⟩ := exec_quit_ok h <;>
      exact .inr ⟨a, _, rfl, .inl ⟨rfl, fun _ h => by simp [Proc.tail?] at h⟩⟩
  | _ =>
    right
    simp only [exec, bind, Except.bind, pure, Except.pure] at h
    repeat' split at h
    all_goals first
      | cases h; done
      | (injection h with h; injection h with h; injection h with h h'; subst h h'
         exact ⟨_, _, rfl, .inl ⟨rfl, fun h => by simp [Proc.active] at h⟩⟩)
      | (injection h with h; split at h
         · cases h
         · injection h with h; injection h with h h'; subst h h'
           exact ⟨_, _, rfl, .inl ⟨rfl, fun h => by simp [Proc.active] at h⟩⟩)

/-- Nothing has changed since the only writer began. -/
theorem Run.window {env : Env} {s : Sys} {σ : Spec} (h : Run env OneWriter s σ) : ∀ a, (s.proc a).writer = true →
    (s.proc a).active = true → (s.proc a).tail? = none → σ.window a = [σ.map] := by
  induction h with
  | init n => intro a h; cases h
  | reload _ _ _ => intro a h; cases h
  | @step s σ act s' ev hr hall hser he ih =>
    have hS := hr.oneWriter.2
    intro b hw hact ht
    rcases exec_shape he with ⟨_, h1, rfl⟩ | ⟨a, p', h1, h2⟩
    · rw [h1] at hw hact ht
      exact ih b hw hact ht
    · rw [h1] at hw hact ht
      by_cases e : b = a
      · subst e
        rw [upd_same] at hw hact ht
        rcases h2 with ⟨rfl, h2⟩ | ⟨c, rfl, rfl⟩ | ⟨_, h2, _⟩
        · obtain ⟨g1, g2, g3⟩ := h2 hact ht
          exact ih b (g3.trans hw) g1 g2
        · simp [Spec.next, upd_same]
        · exact absurd ht h2
      · rw [upd_of_ne _ _ e] at hw hact ht
        rcases h2 with ⟨rfl, h2⟩ | ⟨c, rfl, rfl⟩ | ⟨_, _, h2⟩
        · exact ih b hw hact ht
        · simp only [Spec.next, upd_of_ne _ _ e]
          exact ih b hw hact ht
        · exact absurd (hS.one _ _ hw h2) e

end Radix
