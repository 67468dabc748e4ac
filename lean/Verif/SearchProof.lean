import Verif.Body
import Verif.Spec
/-!
# The search on a memory representing a tree
-/
namespace Radix
open T

/-- Outcome of a search for `key` below a subtree. -/
structure Answer (t : T) (key : Key) (r : Option Word) : Prop where
  hit : ∀ v, r = some v → ∃ lk lv, t.Has lk lv ∧ v = trunc55 lv ∧ ∀ v', t.Has key v' → lk = key
  miss : r = none → ∀ v', ¬ t.Has key v'

theorem Answer.of_none {t : T} {key : Key} (h : ∀ v', ¬ t.Has key v') : Answer t key none :=
  ⟨fun v hv => by simp at hv, fun _ => h⟩

theorem Answer.of_leaf {t : T} {key lk : Key} {lv v : Word} (h : t.Has lk lv) (hv : v = trunc55 lv)
    (hk : ∀ v', t.Has key v' → lk = key) : Answer t key (.some v) := by
  refine ⟨?_, fun h => by simp at h⟩
  intro v' hv'
  obtain rfl : v = v' := by simpa using hv'
  exact ⟨lk, lv, h, hv, hk⟩

theorem View.of_tree {P} {st : St} {b q n pfx big ch} (hnb : st.nblocks ≤ maxBlockCount)
    (hin : (T.node n pfx big ch).InBlocks st.baNext) (hwf : (T.node n pfx big ch).WF P q)
    (hm : NodeMem st.mem n pfx big ch) :
    View P st.baNext st.mem (wordOf b (.node n pfx big ch)) q n pfx big ch :=
  ⟨Nat.le_trans st.baNext_le hnb, hin, hwf, hm, b, rfl⟩

/-- In a node, a stored key is in the child of its byte after the prefix. -/
theorem has_child {P q n pfx big ch key v} (hwf : (T.node n pfx big ch).WF P q) (h : (T.node n pfx big ch).Has key v) :
    ∃ k rest, key = q ++ pfx ++ k :: rest ∧ (ch k).Has key v := by
  obtain ⟨c, hc⟩ := h
  obtain ⟨rest, hr⟩ := ((hwf.2.2 c).has hc).1
  exact ⟨c, rest, by rw [← hr]; simp, hc⟩

/-- The search in a subtree at depth `d`: only the branch bytes are compared. -/
def T.find (key : Key) : T → Nat → Option (Key × Word)
  | .empty, _ => none
  | .leaf lk lv, _ => some (lk, lv)
  | .node _ pfx _ ch, d =>
    match key[d + pfx.length]? with
    | none => none
    | some k => (ch k).find key (d + pfx.length + 1)

/-- The leaf found, as the answer of the search. -/
def leafAnswer (r : Option (Key × Word)) : Option Word := r.map fun p => trunc55 p.2

theorem T.find_has {key lk : Key} {lv : Word} : ∀ {t : T} {d : Nat}, t.find key d = some (lk, lv) → t.Has lk lv
  | .empty, _, h => by cases h
  | .leaf k v, _, h => by cases h; exact ⟨rfl, rfl⟩
  | .node n pfx big ch, d, h => by
    simp only [T.find] at h
    split at h
    · cases h
    · rename_i k _
      exact ⟨k, T.find_has h⟩

theorem T.find_own {P} {key : Key} {v : Word} {t : T} : ∀ {q : Key}, t.WF P q → t.Has key v → ∃ lv, t.find key q.length = some (key, lv) := by
  induction t with
  | empty => intro q _ h; cases h
  | leaf k v => intro q _ h; obtain ⟨rfl, rfl⟩ := h; exact ⟨_, rfl⟩
  | node n pfx big ch ih =>
    intro q hwf h
    obtain ⟨k, rest, h1, h2⟩ := has_child hwf h
    have hk : key[q.length + pfx.length]? = some k := by
      rw [h1, List.getElem?_append_right (by simp)]
      simp
    simp only [T.find, hk]
    have := ih k (hwf.2.2 k) h2
    simpa [Nat.add_assoc] using this

theorem T.find_answer {P} {key : Key} {t : T} {q : Key} (hwf : t.WF P q) : Answer t key (leafAnswer (t.find key q.length)) := by
  cases hf : t.find key q.length with
  | none =>
    refine .of_none fun v' h => ?_
    obtain ⟨lv, h⟩ := T.find_own hwf h
    rw [hf] at h
    cases h
  | some p =>
    obtain ⟨lk, lv⟩ := p
    refine .of_leaf (T.find_has hf) rfl fun v' h => ?_
    obtain ⟨lv, h⟩ := T.find_own hwf h
    rw [hf] at h
    cases h
    rfl

theorem searchLoop_tree {P} {st : St} {key : Key} (hnb : st.nblocks ≤ maxBlockCount) (t : T) :
    ∀ (b : UInt8) (q : Key) (fuel : Nat), t.isNode = true → t.WF P q → t.InBlocks st.baNext → t.Repr st.mem →
      q.length ≤ key.length → key.length < q.length + fuel →
      searchLoop st key fuel (wordOf b t) q.length = .ok (leafAnswer (t.find key q.length)) := by
  induction t with
  | empty => intro _ _ _ h; simp at h
  | leaf => intro _ _ _ h; simp at h
  | node n pfx big ch ih =>
    intro b q fuel _ hwf hin hr hq hfuel
    have hv := View.of_tree (b := b) hnb hin hwf hr.1
    cases fuel with
    | zero => omega
    | succ fuel =>
      unfold searchLoop
      rw [hv.addr, nodeData_view hv]
      simp only [bind, Except.bind, T.find]
      rw [hv.skip]
      simp only
      by_cases hlt : q.length + pfx.length ≥ key.length
      · rw [if_pos hlt, List.getElem?_eq_none hlt]
        rfl
      · rw [if_neg hlt]
        obtain ⟨k, hk⟩ : ∃ k, key[q.length + pfx.length]? = some k := by
          rw [List.getElem?_eq_getElem (by omega)]; exact ⟨_, rfl⟩
        have hka : keyAt key (q.length + pfx.length) = .ok k := by unfold keyAt; rw [hk]
        rw [hka, hk]
        simp only
        have hrec : (ch k).isNode = true → searchLoop st key fuel (wordOf k (ch k)) (q.length + pfx.length + 1) =
            .ok (leafAnswer ((ch k).find key (q.length + pfx.length + 1))) := by
          intro hn
          have h1 := ih k k (q ++ pfx ++ [k]) fuel hn (hwf.2.2 k) (hin.2 k) (hr.2 k)
            (by simp only [List.length_append, List.length_cons, List.length_nil]; omega)
            (by simp only [List.length_append, List.length_cons, List.length_nil]; omega)
          simpa [Nat.add_assoc] using h1
        by_cases hb : big = true
        · rw [if_pos (hv.big_iff.2 hb), hv.getBig hb]
          simp only [hv.kid_zero, hv.kid_isLeaf]
          cases hck : ch k with
          | empty => simp [pure, Except.pure, T.find, leafAnswer]
          | leaf lk lv => simp [pure, Except.pure, T.find, leafAnswer, wordOf]
          | node => simpa [hck] using hrec (by rw [hck]; rfl)
        · have hb' : big = false := by simpa using hb
          rw [if_neg (by rw [hv.big_iff]; exact hb), hv.count, hv.wordsSmall hb']
          simp only
          cases hck : (ch k).isEmpty with
          | true =>
            rw [if_neg (hv.scan_none hb' hck).2, T.isEmpty_eq_true.1 hck]
            rfl
          | false =>
            rw [hv.scan_some hck]
            simp only
            rw [if_pos (hv.keyByte_kid k (present_eq_true.2 hck)), hv.kid_isLeaf]
            cases hck2 : ch k with
            | empty => simp [hck2] at hck
            | leaf lk lv => simp [pure, Except.pure, T.find, leafAnswer, wordOf]
            | node => simpa [hck2] using hrec (by rw [hck2]; rfl)

theorem searchLoop_zero {st : St} {key : Key} (hnb : 0 < st.nblocks) (h0 : st.mem 0 = 0) : ∀ (fuel depth : Nat),
    depth ≤ key.length → key.length < depth + fuel → searchLoop st key fuel 0 depth = .ok none := by
  intro fuel
  induction fuel with
  | zero => intro depth h1 h2; omega
  | succ fuel ih =>
    intro depth h1 h2
    have e1 : nodeAddr 0 = 0 := by decide
    have e2 : nodePlen 0 = 0 := by decide
    have e3 : nodeCount 0 = 1 := by decide
    have e4 : keyByte 0 = 0 := by decide
    have e5 : isLeaf 0 = false := by decide
    have e6 : st.nodeData 0 = .ok ⟨0, blockSlots⟩ := by
      unfold St.nodeData; rw [if_pos (by simpa using hnb)]; rfl
    unfold searchLoop
    rw [e1, e6]
    simp only [bind, Except.bind, e2, skipPrefix, Nat.lt_irrefl, if_false, gt_iff_lt, pure, Except.pure, Nat.add_zero, e3]
    by_cases hd : depth ≥ key.length
    · rw [if_pos hd]
    · rw [if_neg hd]
      have hka : keyAt key depth = .ok key[depth] := by
        unfold keyAt; rw [List.getElem?_eq_getElem (by omega)]
      rw [hka]
      simp only
      rw [if_neg (by decide)]
      have hw : Slice.words st.mem ⟨0, blockSlots⟩ 1 = .ok [0] := by
        unfold Slice.words
        rw [if_pos (by decide)]
        simp [readWords, h0]
      rw [hw]
      have hs : (scan key[depth] [0]).2 = 0 := by unfold scan; split <;> rfl
      simp only [hs, e5]
      split
      · simp only [Bool.false_eq_true, if_false]
        exact ih _ (by omega) (by omega)
      · rfl

/-- The search in the whole tree; a leaf that is the root is compared by its first byte (radix.go:510-517). -/
def T.findRoot (key : Key) : T → Option (Key × Word)
  | .leaf lk lv => if lk.headD 0 = key.headD 0 then some (lk, lv) else none
  | t => t.find key 0

theorem T.findRoot_answer {P} {key : Key} {t : T} (hwf : t.WF P []) : Answer t key (leafAnswer (t.findRoot key)) := by
  cases t with
  | empty => exact T.find_answer (q := []) hwf
  | node => exact T.find_answer (q := []) hwf
  | leaf lk lv =>
    simp only [T.findRoot]
    split
    · exact .of_leaf (t := .leaf lk lv) ⟨rfl, rfl⟩ rfl fun v' h => h.1
    · rename_i h
      refine .of_none fun v' h' => h ?_
      obtain ⟨rfl, _⟩ := h'
      rfl

/-- `Lookup` on a memory representing `t`: exactly the search in `t`. -/
theorem search_find {P st t N} {key : Key} (hc : CoreN P st t N) (hnb : t = .empty → 0 < st.nblocks) (hk : key ≠ []) :
    search st key = .ok (leafAnswer (t.findRoot key)) := by
  unfold search
  rw [hc.root]
  cases t with
  | empty =>
    have e5 : isLeaf 0 = false := by decide
    simp only [rootWord, e5, Bool.false_eq_true, if_false]
    exact searchLoop_zero (hnb rfl) hc.zero _ _ (by omega) (by omega)
  | leaf lk lv =>
    simp only [rootWord, isLeaf_buildLeaf, if_true]
    obtain ⟨c, ks, rfl⟩ : ∃ c ks, key = c :: ks := by
      cases key with
      | nil => exact absurd rfl hk
      | cons c ks => exact ⟨c, ks, rfl⟩
    simp only [keyAt, List.getElem?_cons_zero, bind, Except.bind, keyByte_buildLeaf, leafValue_buildLeaf]
    have e : T.findRoot (c :: ks) (.leaf lk lv) = if lk.headD 0 = c then some (lk, lv) else none := rfl
    rw [e]
    split <;> rfl
  | node n pfx big ch =>
    have e := isLeaf_wordOf (b := 0) hc.bn hc.inb
    rw [rootWord_node, e]
    simp only [isLf_node, Bool.false_eq_true, if_false]
    exact searchLoop_tree hc.nb _ 0 [] _ rfl hc.wf hc.inb hc.repr (by simp) (by simp)

theorem search_tree {P st t N} {key : Key} (hc : CoreN P st t N) (hnb : t = .empty → 0 < st.nblocks) (hk : key ≠ []) :
    ∃ r, search st key = .ok r ∧ Answer t key r :=
  ⟨_, search_find hc hnb hk, T.findRoot_answer hc.wf⟩

/-! ## Reachable slots -/

/-- `p` is a child slot of the node that `w` refers to. -/
def SlotOf (st : St) (w : Word) (p : Nat) : Prop :=
  ∃ d plen slots data i, st.nodeData (nodeAddr w) = .ok d ∧ skipPrefix st.mem d (nodePlen w) = .ok (plen, slots, data) ∧
    i < nodeCount w ∧ p = data.base + i

/-- The references reachable from the root. -/
inductive Reach (st : St) : Word → Prop
  | root : Reach st st.root
  | child {w p} : Reach st w → w ≠ 0 → isLeaf w = false → SlotOf st w p → Reach st (st.mem p)

/-- `p` is a child slot of a node reachable from the root. -/
def LiveSlot (st : St) (p : Nat) : Prop := ∃ w, Reach st w ∧ w ≠ 0 ∧ isLeaf w = false ∧ SlotOf st w p

theorem View.slotOf_iff {P} {st : St} {raw q n pfx big ch} (h : View P st.baNext st.mem raw q n pfx big ch) {p : Nat} :
    SlotOf st raw p ↔ ∃ c, (big = true ∨ (ch c).isEmpty = false) ∧ p = childSlot n pfx big ch c := by
  unfold SlotOf
  rw [h.addr, nodeData_view h, h.count]
  constructor
  · rintro ⟨d, plen, slots, data, i, h1, h2, h3, rfl⟩
    obtain rfl := Except.ok.inj h1
    rw [h.skip] at h2
    obtain ⟨_, _, rfl⟩ : pfx.length = plen ∧ _ ∧ _ = data := by
      have := Except.ok.inj h2
      simpa using this
    cases hb : big with
    | true =>
      subst hb
      refine ⟨UInt8.ofNat i, .inl rfl, ?_⟩
      simp only [cnt, if_true] at h3
      simp only [childSlot, idx, if_true]
      congr 1
      simp only [UInt8.toNat_ofNat']
      omega
    | false =>
      subst hb
      simp only [cnt, Bool.false_eq_true, if_false] at h3
      have hi : i < (kidsOf (present ch)).length := h3
      refine ⟨(kidsOf (present ch))[i], .inr (present_eq_true.1 (mem_kidsOf.1 (List.getElem_mem hi))), ?_⟩
      simp only [childSlot, idx, Bool.false_eq_true, if_false, rankOf_kidsOf hi]
  · rintro ⟨c, h1, rfl⟩
    exact ⟨_, _, _, _, idx big ch c, rfl, h.skip, idx_lt h1, rfl⟩

theorem CoreN.view {P st t N q n pfx big ch b} (hc : CoreN P st t N) (hat : At t q (.node n pfx big ch)) :
    View P st.baNext st.mem (wordOf b (.node n pfx big ch)) q n pfx big ch :=
  View.of_tree hc.nb (hat.inBlocks hc.inb) (by simpa using hat.wf hc.wf) (hat.repr hc.repr).1

/-- A reference is the word of a subtree of `t`. -/
def RefOf (t : T) (w : Word) : Prop := w = rootWord t ∨ ∃ q n pfx big ch c, At t q (.node n pfx big ch) ∧ w = wordOf c (ch c)

theorem RefOf.node {P st t N w} (hc : CoreN P st t N) (h : RefOf t w) (h0 : w ≠ 0) (hl : isLeaf w = false) :
    ∃ q n pfx big ch b, At t q (.node n pfx big ch) ∧ w = wordOf b (.node n pfx big ch) := by
  rcases h with rfl | ⟨q, n, pfx, big, ch, c, hat, rfl⟩
  · cases t with
    | empty => exact absurd rfl h0
    | leaf k v => simp [rootWord] at hl
    | node n pfx big ch => exact ⟨[], n, pfx, big, ch, 0, .here _, rfl⟩
  · have := hat.child c
    cases hck : ch c with
    | empty => rw [hck] at h0; exact absurd rfl h0
    | leaf k v => rw [hck] at hl; simp [wordOf] at hl
    | node n' pfx' big' ch' => exact ⟨_, n', pfx', big', ch', c, hck ▸ this, rfl⟩

theorem Reach.refOf {P st t N w} (hc : CoreN P st t N) (h : Reach st w) : RefOf t w := by
  induction h with
  | root => exact .inl hc.root
  | @child w p _ h0 hl hs ih =>
    obtain ⟨q, n, pfx, big, ch, b, hat, rfl⟩ := ih.node hc h0 hl
    obtain ⟨c, h1, rfl⟩ := (hc.view (b := b) hat).slotOf_iff.1 hs
    exact .inr ⟨q, n, pfx, big, ch, c, hat, (hc.view (b := b) hat).mem.kid c h1⟩

theorem reach_at {P st t N} (hc : CoreN P st t N) {q t'} (hat : At t q t') (hn : t'.isNode = true) : ∃ b, Reach st (wordOf b t') := by
  obtain ⟨C, rfl, rfl⟩ := hat.ctx
  clear hat
  suffices ∀ (C D : Ctx), CoreN P st (plug (D ++ C) t') N → (∃ b, Reach st (wordOf b (plug C t'))) → ∃ b, Reach st (wordOf b t') by
    refine this C [] hc ⟨0, ?_⟩
    have h := Reach.root (st := st)
    rw [hc.root] at h
    cases hp : plug C t' with
    | node => rw [hp] at h; exact h
    | empty => cases C with
      | nil => simp only [plug] at hp; rw [hp] at hn; simp at hn
      | cons => simp [plug] at hp
    | leaf => cases C with
      | nil => simp only [plug] at hp; rw [hp] at hn; simp at hn
      | cons => simp [plug] at hp
  intro C
  induction C with
  | nil => intro D _ h; exact h
  | cons f C ih =>
    intro D hD h
    obtain ⟨b, h⟩ := h
    refine ih (D ++ [f]) (by simpa using hD) ⟨f.c, ?_⟩
    have hat := At_plug D (plug (f :: C) t')
    rw [← plug_append] at hat
    simp only [plug] at hat h
    have hv := hD.view (b := b) hat
    have hne : (upd f.ch f.c (plug C t') f.c).isEmpty = false := by
      rw [upd_same]
      cases C with
      | nil => simp only [plug]; cases t' <;> simp_all
      | cons => rfl
    have := h.child (by
      rw [Ne, wordOf_eq_zero (Nat.le_trans st.baNext_le hD.nb) hv.inb]; simp) (by
      rw [isLeaf_wordOf (Nat.le_trans st.baNext_le hD.nb) hv.inb]; rfl) (hv.slotOf_iff.2 ⟨f.c, .inr hne, rfl⟩)
    rw [hv.mem.kid f.c (.inr hne), upd_same] at this
    exact this

theorem liveSlot_iff {P st t N p} (hc : CoreN P st t N) : LiveSlot st p ↔
    ∃ q n pfx big ch c, At t q (.node n pfx big ch) ∧ (big = true ∨ (ch c).isEmpty = false) ∧ p = childSlot n pfx big ch c := by
  constructor
  · rintro ⟨w, h1, h2, h3, h4⟩
    obtain ⟨q, n, pfx, big, ch, b, hat, rfl⟩ := (h1.refOf hc).node hc h2 h3
    obtain ⟨c, h5, h6⟩ := (hc.view (b := b) hat).slotOf_iff.1 h4
    exact ⟨q, n, pfx, big, ch, c, hat, h5, h6⟩
  · rintro ⟨q, n, pfx, big, ch, c, hat, h1, h2⟩
    obtain ⟨b, hb⟩ := reach_at hc hat rfl
    have hv := hc.view (b := b) hat
    refine ⟨_, hb, ?_, ?_, hv.slotOf_iff.2 ⟨c, h1, h2⟩⟩
    · rw [Ne, wordOf_eq_zero (Nat.le_trans st.baNext_le hc.nb) hv.inb]; simp
    · rw [isLeaf_wordOf (Nat.le_trans st.baNext_le hc.nb) hv.inb]; rfl

end Radix
