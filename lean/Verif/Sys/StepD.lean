import Verif.Sys.StepU
/-!
# Steps of `prepare` of deletes preserve the invariant
-/
namespace Radix
open T

/-- A stored key starting with the path of a subtree is in that subtree. -/
theorem At.has_of_prefix {P} {t q t'} (h : At t q t') : ∀ {p}, t.WF P p → ∀ {key v}, t.Has key v → p ++ q <+: key → t'.Has key v := by
  induction h with
  | here t => intro p _ key v h _; exact h
  | @down a pfx big ch c r t _ ih =>
    intro p hwf key v hh hp
    obtain ⟨k, rest, e, hk⟩ := has_child hwf hh
    have hkc : k = c := by
      refine prefix_of_cons_eq (p := p ++ pfx) (q := key) (r := rest) (s := r) ?_ ?_
      · rw [e]; exact List.prefix_refl _
      · simpa using hp
    subst hkc
    exact ih (hwf.2.2 k) hk (by simpa using hp)

/-- A key stored all the time is in the child of its next byte. -/
theorem Trk.child {P} {S : T → Prop} {key q : Key} {t1 : T} {n pfx big ch} (htrk : Trk S key q) (hs : S t1) (hwf : t1.WF P [])
    (hat : At t1 q (.node n pfx big ch)) (hall : ∀ t, S t → ∃ v, t.Has key v) :
    ∃ k rest v, key = q ++ pfx ++ k :: rest ∧ (ch k).Has key v := by
  obtain ⟨v, hv⟩ := hall t1 hs
  have h1 := hat.has_of_prefix hwf hv (by simpa using htrk hall)
  obtain ⟨k, rest, h2, h3⟩ := has_child (by simpa using hat.wf hwf) h1
  exact ⟨k, rest, v, h2, h3⟩

theorem Absent.of_not {S : T → Prop} {key : Key} (h : ¬ ∀ t, S t → ∃ v, t.Has key v) : Absent S key := by
  apply Classical.byContradiction
  intro hn
  apply h
  intro t ht
  apply Classical.byContradiction
  intro hv
  exact hn ⟨t, ht, fun v hh => hv ⟨v, hh⟩⟩

section
variable {env : Env} {s : Sys} {σ : Spec} {t : T} {seen : Nat → T → Prop} (hI : Inv env s σ t seen) {a : Nat}
include hI

theorem stepD_start {key : Key} (hp : s.proc a = .del (.start key)) :
    ∃ ph' st', stepD s.st (.start key) = .ok (ph', st') ∧ Inv env (s.set a st' (.del ph')) σ t seen := by
  have hact : (s.proc a).active = true := by rw [hp]; rfl
  have hu : (s.proc a).unl = .none := by rw [hp]; rfl
  have htl : (s.proc a).plain = true := by rw [hp]; rfl
  have hP := hI.proc a
  rw [hp] at hP
  have hkey : key ≠ [] := hP
  have hnow := hI.mem.now a hact
  obtain ⟨k, hka, hkh⟩ := keyAt_zero hkey
  simp only [stepD]
  rcases rootWord_cases hI.mem.core with ⟨e1, e⟩ | ⟨lk, lv, e1, e⟩ | ⟨n, pfx, big, ch, e1, e2, e3, e4⟩
  · rw [if_pos e]
    exact ⟨_, _, rfl, hI.moveLocal hact hu htl rfl rfl rfl ⟨t, hnow, by rw [e1]; intro v h; exact h⟩⟩
  · rw [if_neg (by rw [e]; exact buildLeaf_ne_zero _ _), if_pos (by rw [e]; simp), hka]
    simp only [bind, Except.bind, pure, Except.pure]
    by_cases hb : keyByte s.st.root = k
    · rw [if_pos hb]
      exact ⟨_, _, rfl, hI.moveLocal hact hu htl rfl rfl rfl ⟨hkey, by rw [e]; simp, by rw [hb, hkh]⟩⟩
    · rw [if_neg hb]
      refine ⟨_, _, rfl, hI.moveLocal hact hu htl rfl rfl rfl ⟨t, hnow, ?_⟩⟩
      rw [e1]
      rintro v ⟨rfl, _⟩
      apply hb
      rw [e]
      simp only [keyByte_buildLeaf]
      cases lk with
      | nil => exact absurd rfl hkey
      | cons c ks => simpa using hkh
  · rw [if_neg e3, if_neg (by rw [e4]; simp)]
    have hsr : SeenRef (seen a) s.st.root [] := ⟨t, hnow, 0, n, pfx, big, ch, by rw [e1]; exact .here _, e2⟩
    refine ⟨_, _, rfl, hI.moveLocal hact hu htl rfl rfl rfl ⟨[], ⟨hkey, rfl, fun _ => List.nil_prefix, fun _ => rfl, hsr⟩, hsr, ?_⟩⟩
    exact .inl ⟨rfl, rfl, rfl, hI.keyByteRoot e1⟩

theorem stepD_root {key : Key} {root : Word} (hp : s.proc a = .del (.root key root)) :
    ∃ ph' st', stepD s.st (.root key root) = .ok (ph', st') ∧ Inv env (s.set a st' (.del ph')) σ t seen := by
  have hact : (s.proc a).active = true := by rw [hp]; rfl
  have hu : (s.proc a).unl = .none := by rw [hp]; rfl
  have htl : (s.proc a).plain = true := by rw [hp]; rfl
  have hP := hI.proc a
  rw [hp] at hP
  obtain ⟨hkey, hlf, hbyte⟩ := hP
  have hnow := hI.mem.now a hact
  simp only [stepD, St.lockLeafRoot]
  by_cases h0 : s.st.rootLock = 0
  · by_cases h1 : s.st.root = root
    · simp only [if_pos h0, if_pos h1]
      rcases rootWord_cases hI.mem.core with ⟨e1, e⟩ | ⟨lk, lv, e1, e⟩ | ⟨n, pfx, big, ch, e1, e2, e3, e4⟩
      · rw [← h1, e] at hlf; exact absurd hlf (by decide)
      · have hval : leafValue root = trunc55 lv := by rw [← h1, e]; simp
        refine ⟨_, _, rfl, hI.moveRoot hact hu htl rfl rfl h0 rfl ⟨⟨t, lk, lv, hnow, by rw [e1]; exact ⟨rfl, rfl⟩, hval, ?_⟩,
          .inl ⟨rfl, lk, lv, e1, hval⟩⟩⟩
        intro hall
        obtain ⟨v, hv⟩ := hall t hnow
        rw [e1] at hv
        exact hv.1
      · rw [← h1, e4] at hlf; cases hlf
    · simp only [if_pos h0, if_neg h1]
      exact ⟨_, _, rfl, hI.moveLocal hact hu htl rfl rfl rfl hkey⟩
  · simp only [if_neg h0]
    exact ⟨_, _, rfl, hI.moveLocal hact hu htl rfl rfl rfl hkey⟩

/-- The generation of the node is read (possibly while another operation holds the lock for a moment). -/
theorem genD_inv {cur : DelCur} (hp : s.proc a = .del (.gen cur)) {g : Int} (hg : g / 2 = s.st.gen (nodeAddr cur.op.raw) / 2) :
    Inv env (s.set a s.st (.del (.ptr { cur with op := { cur.op with node := nodeAddr cur.op.raw, nodeGen := g } }))) σ t seen := by
  have hact : (s.proc a).active = true := by rw [hp]; rfl
  have hu : (s.proc a).unl = .none := by rw [hp]; rfl
  have htl : (s.proc a).plain = true := by rw [hp]; rfl
  have hP := hI.proc a
  rw [hp] at hP
  obtain ⟨q, hk, hw⟩ := hP
  refine hI.moveLocal hact hu htl rfl rfl rfl ⟨q, ⟨hk.ne, hk.depth, hk.trk, hk.top, hk.root⟩,
    ⟨⟨hw.ref, hw.up⟩, rfl, Int.le_of_eq hg, ?_⟩⟩
  intro h0 hs
  rcases hw.up with g' | ⟨_, _, _, g', _⟩
  · exact absurd g'.1 h0
  · have : s.st.gen cur.op.parent = s.st.gen (nodeAddr cur.op.raw) := gen_congr hs
    show cur.op.parentGen / 2 ≤ g / 2
    rw [hg, ← this]; exact g'

theorem genD_ok {cur : DelCur} (hp : s.proc a = .del (.gen cur)) :
    s.st.generation (nodeAddr cur.op.raw) = .ok (s.st.gen (nodeAddr cur.op.raw)) := by
  have hact : (s.proc a).active = true := by rw [hp]; rfl
  have hP := hI.proc a
  rw [hp] at hP
  obtain ⟨q, hk, hw⟩ := hP
  obtain ⟨n, pfx, big, ch, hv, _, _⟩ := hI.mem.look hact hw.ref
  have := generation_view hv
  rwa [← hv.addr] at this

theorem stepD_gen {cur : DelCur} (hp : s.proc a = .del (.gen cur)) :
    ∃ ph' st', stepD s.st (.gen cur) = .ok (ph', st') ∧ Inv env (s.set a st' (.del ph')) σ t seen := by
  simp only [stepD]
  rw [genD_ok hI hp]
  exact ⟨_, _, rfl, genD_inv hI hp rfl⟩

theorem stepD_ptr {cur : DelCur} (hp : s.proc a = .del (.ptr cur)) :
    ∃ ph' st', stepD s.st (.ptr cur) = .ok (ph', st') ∧ Inv env (s.set a st' (.del ph')) σ t seen := by
  have hact : (s.proc a).active = true := by rw [hp]; rfl
  have hu : (s.proc a).unl = .none := by rw [hp]; rfl
  have htl : (s.proc a).plain = true := by rw [hp]; rfl
  have hP := hI.proc a
  rw [hp] at hP
  obtain ⟨q, hk, hw⟩ := hP
  simp only [stepD]
  by_cases h : s.st.load cur.op.nodePtr ≠ cur.op.raw
  · rw [if_pos h]
    exact ⟨_, _, rfl, hI.moveLocal hact hu htl rfl rfl rfl hk.ne⟩
  · rw [if_neg h]
    have h' : s.st.load cur.op.nodePtr = cur.op.raw := Decidable.not_not.1 h
    exact ⟨_, _, rfl, hI.moveLocal hact hu htl rfl rfl rfl ⟨q, hk, { hw with live0 := fun h0 _ => hw.live_of_root hI hact h0 h' }⟩⟩

/-- The check of the parent's generation is passed. -/
theorem parD_inv {cur : DelCur} (hp : s.proc a = .del (.par cur)) (h : cur.op.parent ≠ 0)
    (hg : s.st.gen cur.op.parent / 2 = cur.op.parentGen / 2) (hsafe : s.Safe cur.op.parent cur.op.node cur.op.raw) : Inv env (s.set a s.st (.del (.body cur))) σ t seen := by
  have hact : (s.proc a).active = true := by rw [hp]; rfl
  have hu : (s.proc a).unl = .none := by rw [hp]; rfl
  have htl : (s.proc a).plain = true := by rw [hp]; rfl
  have hP := hI.proc a
  rw [hp] at hP
  obtain ⟨q, hk, hw⟩ := hP
  refine hI.moveLocal hact hu htl rfl rfl rfl ⟨q, hk,
    { hw.toW2 with live := fun hf => hw.toW2.live_of_safe hI hact h hg hsafe hf, eq := ?_ }⟩
  intro h0 hs
  have h1 := hw.le h0 hs
  have h2 := hw.ng
  have h3 : s.st.gen cur.op.parent = s.st.gen cur.op.node := gen_congr hs
  have h4 : cur.op.nodeGen / 2 ≤ s.st.gen cur.op.node / 2 := h2
  have h5 : cur.op.parentGen / 2 ≤ cur.op.nodeGen / 2 := h1
  have h6 := hg
  show cur.op.parentGen / 2 = cur.op.nodeGen / 2
  rw [h3] at h6
  omega

/-- A restart. -/
theorem parD_restart {cur : DelCur} (hp : s.proc a = .del (.par cur)) : Inv env (s.set a s.st (.del (.start cur.key))) σ t seen := by
  have hact : (s.proc a).active = true := by rw [hp]; rfl
  have hu : (s.proc a).unl = .none := by rw [hp]; rfl
  have htl : (s.proc a).plain = true := by rw [hp]; rfl
  have hP := hI.proc a
  rw [hp] at hP
  obtain ⟨q, hk, hw⟩ := hP
  exact hI.moveLocal hact hu htl rfl rfl rfl hk.ne

theorem parD_ok {cur : DelCur} (hp : s.proc a = .del (.par cur)) (h : cur.op.parent ≠ 0) :
    s.st.generation cur.op.parent = .ok (s.st.gen cur.op.parent) := by
  have hP := hI.proc a
  rw [hp] at hP
  obtain ⟨q, hk, hw⟩ := hP
  have hup : cur.op.parent / blockSlots < s.st.baNext := by
    rcases hw.up with g | ⟨_, _, g1, g2, _⟩
    · exact absurd g.1 h
    · exact g1
  unfold St.generation lockBlock
  rw [if_pos (Nat.lt_of_lt_of_le hup s.st.baNext_le)]

theorem stepD_par {cur : DelCur} (hp : s.proc a = .del (.par cur)) (hcalm : Calm s (.run a)) :
    ∃ ph' st', stepD s.st (.par cur) = .ok (ph', st') ∧ Inv env (s.set a st' (.del ph')) σ t seen := by
  have hact : (s.proc a).active = true := by rw [hp]; rfl
  have hu : (s.proc a).unl = .none := by rw [hp]; rfl
  have htl : (s.proc a).plain = true := by rw [hp]; rfl
  simp only [Calm, hp] at hcalm
  simp only [stepD]
  by_cases h : cur.op.parent = 0
  · rw [if_pos h]
    have hP := hI.proc a
    rw [hp] at hP
    obtain ⟨q, hk, hw⟩ := hP
    exact ⟨_, _, rfl, hI.moveLocal hact hu htl rfl rfl rfl ⟨q, hk, { hw.toW2 with live := hw.live0 h, eq := fun h0 => absurd h h0 }⟩⟩
  · rw [if_neg h, parD_ok hI hp h]
    simp only [bind, Except.bind, pure, Except.pure]
    by_cases hne : cur.op.parentGen ≠ s.st.gen cur.op.parent
    · rw [if_pos hne]
      exact ⟨_, _, rfl, parD_restart hI hp⟩
    · rw [if_neg hne]
      have heq : s.st.gen cur.op.parent = cur.op.parentGen := (Decidable.not_not.1 hne).symm
      exact ⟨_, _, rfl, parD_inv hI hp h (by rw [heq]) (hcalm h heq)⟩

/-- delete.go:194-202: the byte computed for the remaining leaf. -/
theorem newLeafKey_spec {cur : DelCur} {q : Key} {n pfx k k2 c1 lk2 lv2} (hact : (s.proc a).active = true)
    (hk : DKey (seen a) cur q)
    (hv : View env.P s.st.baNext s.st.mem cur.op.raw q n pfx false (ch2 k c1 k2 (.leaf lk2 lv2))) (hne : k ≠ k2)
    (hr : SeenRef (seen a) cur.op.raw q)
    (hlt : cur.depth + pfx.length < cur.key.length) (hkb : keyAt cur.key (cur.depth + pfx.length) = .ok k) :
    ∃ nk, (cur.passed n pfx).newLeafKey (wordOf k2 (.leaf lk2 lv2)) = .ok nk ∧
      ∀ lk lv, c1 = .leaf lk lv → lk = cur.key → updateLeafKey (wordOf k2 (.leaf lk2 lv2)) nk = leafWord q lk2 lv2 := by
  have hw1 := hv.wf.2.2 k
  have hw2 := hv.wf.2.2 k2
  rw [ch2_fst hne] at hw1
  rw [ch2_snd] at hw2
  have hw1 : ∀ lk lv, c1 = .leaf lk lv → ∃ r1, q ++ pfx ++ [k] ++ r1 = lk := by
    intro lk lv e
    rw [e] at hw1
    exact hw1.1
  obtain ⟨⟨r2, hr2⟩, _⟩ := hw2
  have hd := hk.depth
  unfold DelCur.newLeafKey
  have hpl : (cur.passed n pfx).op.prefixLen = pfx.length := rfl
  have hdp : (cur.passed n pfx).depth = cur.depth + pfx.length := rfl
  have hky : (cur.passed n pfx).key = cur.key := rfl
  have hrw : (cur.passed n pfx).op.raw = cur.op.raw := rfl
  have hrt : (cur.passed n pfx).root = cur.root := rfl
  rw [hpl, hdp, hky, hrw, hrt]
  by_cases hq : q = []
  · subst hq
    rw [if_pos (hk.top rfl)]
    cases pfx with
    | nil =>
      rw [if_neg (by simp)]
      refine ⟨k2, by simp [wordOf, pure, Except.pure], fun _ _ _ _ => ?_⟩
      simp only [wordOf, updateLeafKey_buildLeaf, leafWord, List.getLast?_nil, rootWord]
      rw [← hr2]; rfl
    | cons c pfx =>
      rw [if_pos (by simp)]
      obtain ⟨k0, h1, h2⟩ := keyAt_zero hk.ne
      refine ⟨k0, h1, fun lk lv hc1 hl => ?_⟩
      obtain ⟨r1, hr1⟩ := hw1 lk lv hc1
      simp only [wordOf, updateLeafKey_buildLeaf, leafWord, List.getLast?_nil, rootWord]
      rw [← hl, ← hr1] at h2
      simp at h2
      rw [← hr2]
      simp [h2]
  · have hrn : cur.op.raw ≠ cur.root := by
      intro e
      obtain ⟨t1, hs1, b1, n1, p1, g1, c1, hat1, e1⟩ := hr
      obtain ⟨t2, hs2, b2, n2, p2, g2, c2, hat2, e2⟩ := hk.root
      have i1 := hat1.inBlocks (hI.mem.ok a t1 hact hs1).inb
      have i2 := hat2.inBlocks (hI.mem.ok a t2 hact hs2).inb
      have f1 : nodeAddr cur.op.raw = n1 := by rw [e1]; exact nodeAddr_wordOf hI.mem.core.bn i1
      have f2 : nodeAddr cur.op.raw = n2 := by rw [e, e2]; exact nodeAddr_wordOf hI.mem.core.bn i2
      have f3 : n1 = n2 := f1.symm.trans f2
      subst f3
      exact hq (hI.mem.uniq a t1 t2 q [] n1 p1 g1 c1 p2 g2 c2 hact hs1 hs2 hat1 hat2)
    rw [if_neg hrn, if_neg (by have := List.length_pos_iff.2 hq; omega)]
    have hpos := List.length_pos_iff.2 hq
    have hidx : cur.depth + pfx.length - pfx.length - 1 < cur.key.length := by omega
    refine ⟨cur.key[cur.depth + pfx.length - pfx.length - 1], by unfold keyAt; rw [List.getElem?_eq_getElem hidx], fun lk lv hc1 hl => ?_⟩
    obtain ⟨r1, hr1⟩ := hw1 lk lv hc1
    have hlast : q.getLast? = some (cur.key[cur.depth + pfx.length - pfx.length - 1]) := by
      rw [List.getLast?_eq_getElem?]
      have h1 : q.length - 1 < q.length := by omega
      rw [List.getElem?_eq_getElem h1]
      congr 1
      have h2 : cur.key[cur.depth + pfx.length - pfx.length - 1]? = q[q.length - 1]? := by
        rw [← hl, ← hr1]
        have e : cur.depth + pfx.length - pfx.length - 1 = q.length - 1 := by omega
        rw [e]
        simp only [List.append_assoc]
        rw [List.getElem?_append_left h1]
      rw [List.getElem?_eq_getElem hidx, List.getElem?_eq_getElem h1] at h2
      exact (Option.some.inj h2).symm
    unfold leafWord
    rw [hlast]
    simp [wordOf]

theorem stepD_body {cur : DelCur} (hp : s.proc a = .del (.body cur)) :
    ∃ ph' st', stepD s.st (.body cur) = .ok (ph', st') ∧ Inv env (s.set a st' (.del ph')) σ t seen := by
  have hact : (s.proc a).active = true := by rw [hp]; rfl
  have hu : (s.proc a).unl = .none := by rw [hp]; rfl
  have htl : (s.proc a).plain = true := by rw [hp]; rfl
  have hP := hI.proc a
  rw [hp] at hP
  obtain ⟨q, hk, hw⟩ := hP
  obtain ⟨n, pfx, big, ch, hv, ⟨t1, hs1, hat1⟩, hlive⟩ := hI.mem.look hact hw.ref
  have hv : View env.P s.st.baNext s.st.mem cur.op.raw q n pfx big ch := hv
  have hn : cur.op.node = n := by rw [← hv.addr]; exact hw.node
  subst hn
  have hok1 := hI.mem.ok a t1 hact hs1
  have hfl : Fresh s cur.op.node cur.op.nodeGen → At t q (.node cur.op.node pfx big ch) := fun hf => hlive (hw.live hf)
  have hd := hk.depth
  have htrk := hk.trk.child hs1 hok1.wf hat1
  simp only [stepD]
  rw [bodyD_view hv rfl]
  by_cases hlt : cur.depth + pfx.length < cur.key.length
  · obtain ⟨k, hkb⟩ : ∃ k, cur.key[cur.depth + pfx.length]? = some k := by
      rw [List.getElem?_eq_getElem hlt]; exact ⟨_, rfl⟩
    have hka : keyAt cur.key (cur.depth + pfx.length) = .ok k := by unfold keyAt; rw [hkb]
    have htrk' : (∀ t, seen a t → ∃ v, t.Has cur.key v) → (∃ v, (ch k).Has cur.key v) ∧ q ++ pfx ++ [k] <+: cur.key := by
      intro hall
      obtain ⟨k', rest, v, h1, h2⟩ := htrk hall
      have e : k' = k := by
        rw [hd, h1, ← List.length_append, List.getElem?_append_right (Nat.le_refl _)] at hkb
        simpa using hkb
      subst e
      exact ⟨⟨v, h2⟩, rest, by rw [h1]; simp⟩
    have hcand : ∀ lk lv, ch k = .leaf lk lv → CandK (seen a) cur.key (leafValue (wordOf k (ch k))) := by
      intro lk lv hck
      refine ⟨t1, lk, lv, hs1, ?_, by rw [hck]; simp [wordOf], ?_⟩
      · have := hat1.child k
        rw [hck] at this
        exact this.has ⟨rfl, rfl⟩
      · intro hall
        obtain ⟨⟨v, h1⟩, _⟩ := htrk' hall
        rw [hck] at h1
        exact h1.1
    rcases childrenD_view hv (cur := cur.passed cur.op.node pfx) (k := k) (plen := nodePlen cur.op.raw) hlt hka rfl with
      ⟨e1, e2⟩ | ⟨e1, e2⟩ | ⟨lk, lv, e1, ⟨e2, e3⟩ | ⟨e2, e3, e4⟩ | ⟨k2, e2, e3, e4, e5, e6⟩⟩
    · rw [e2]
      refine ⟨_, _, rfl, hI.moveLocal hact hu htl rfl rfl rfl ?_⟩
      apply Absent.of_not
      intro hall
      obtain ⟨⟨v, h1⟩, _⟩ := htrk' hall
      rw [e1] at h1
      exact h1
    · rw [e2]
      cases hck : ch k with
      | empty => rw [hck] at e1; simp at e1
      | leaf => rw [hck] at e1; simp at e1
      | node n' pfx' b' kids =>
        refine ⟨_, _, rfl, hI.moveLocal hact hu htl rfl rfl rfl ⟨q ++ pfx ++ [k], ⟨hk.ne, ?_, fun hall => (htrk' hall).2, ?_, hk.root⟩,
          ?_, ?_⟩⟩
        · show cur.depth + pfx.length + 1 = _
          rw [hd]; simp only [List.length_append, List.length_singleton]
        · intro h; simp at h
        · refine ⟨t1, hs1, k, n', pfx', b', kids, ?_, rfl⟩
          have := hat1.child k
          rwa [hck] at this
        · have h0 : cur.op.node ≠ 0 := by have := hv.inb.1.1; omega
          refine .inr ⟨h0, by simp, hv.inb.1.2.1, hw.ng, ?_⟩
          intro hf
          exact ⟨q, pfx, big, ch, k, hfl hf, rfl, rfl, e1, by rw [hck]; rfl⟩
    · rw [e3]
      subst e2
      refine ⟨_, _, rfl, hI.moveLocal hact hu htl rfl rfl rfl ⟨hcand lk lv e1, .inr (.inr (.inr ⟨rfl, rfl, ?_, t1, q, _, pfx, ch, k, hs1, hat1, rfl⟩))⟩⟩
      show isLeaf (wordOf k (ch k)) = true
      rw [e1]; simp [wordOf]
    · rw [e4]
      subst e2
      refine ⟨_, _, rfl, hI.moveLocal hact hu htl rfl rfl rfl ⟨hk.ne, hcand lk lv e1, .inl rfl, q, pfx, hw, ?_⟩⟩
      intro hf
      exact ⟨ch, hfl hf, hv.ref, rfl, .inl ⟨rfl, k, lk, lv, e1, e3, by rw [e1]; simp [wordOf, DelCur.foundLeaf], rfl, rfl, rfl, rfl⟩⟩
    · subst e2
      rw [e6]
      have hraw := hv.ref
      obtain ⟨b, hraw⟩ := hraw
      have hch : ch2 k (ch k) k2 (ch k2) = ch := by rw [e1]; exact e5.symm
      refine ⟨_, _, rfl, hI.moveLocal hact hu htl rfl rfl rfl ⟨hcand lk lv e1, rfl, q, pfx, k, k2, cur, _, _, rfl, hk, hw, e3, hlt, hka,
        ⟨t1, ch k, ch k2, b, hs1, ?_, e4, ?_, ?_⟩, fun hf => ⟨lk, lv, ch k2, ?_, ?_, e4, ⟨b, ?_⟩, ?_⟩⟩⟩
      · rw [hch]; exact hat1
      · rw [hch]; exact hraw
      · rw [hch]; rfl
      · rw [← e5]; exact hfl hf
      · show leafValue (wordOf k (ch k)) = _
        rw [e1]; simp [wordOf]
      · rw [← e5]; exact hraw
      · rw [← e5]; rfl
  · have hmiss : childrenD s.st.mem (cur.passed cur.op.node pfx) (nodeCount cur.op.raw) (nodePlen cur.op.raw)
        ⟨cur.op.node + prefixSlots pfx.length, blockSlots - cur.op.node % blockSlots - prefixSlots pfx.length⟩ = .ok (.miss cur.key) := by
      unfold childrenD
      rw [if_pos (by show cur.depth + pfx.length ≥ cur.key.length; omega)]
      rfl
    rw [hmiss]
    refine ⟨_, _, rfl, hI.moveLocal hact hu htl rfl rfl rfl ?_⟩
    apply Absent.of_not
    intro hall
    obtain ⟨k', rest, v, h1, h2⟩ := htrk hall
    rw [h1] at hlt
    simp only [List.length_append, List.length_cons] at hlt
    omega

/-- Loading the other child of a node with two children. -/
theorem stepD_other {cur : DelCur} {p plen : Nat} (hp : s.proc a = .del (.other cur p plen)) :
    ∃ ph' st', stepD s.st (.other cur p plen) = .ok (ph', st') ∧ Inv env (s.set a st' (.del ph')) σ t seen := by
  have hact : (s.proc a).active = true := by rw [hp]; rfl
  have hu : (s.proc a).unl = .none := by rw [hp]; rfl
  have htl : (s.proc a).plain = true := by rw [hp]; rfl
  have hP := hI.proc a
  rw [hp] at hP
  obtain ⟨hcand, hplen, q, pfx, k, k2, cur0, pos, w, hcur, hk, hw, hne, hlt, hka, ⟨t0, c1, c2, b, hs0, hat0, hc2, hraw0, hp0⟩, hfr⟩ := hP
  have hkey : cur.key = cur0.key := by rw [hcur]; rfl
  have hrw : cur.op.raw = cur0.op.raw := by rw [hcur]; rfl
  have hsl : cur.op.prefixSlots = prefixSlots pfx.length := by rw [hcur]; rfl
  have hdat : cur.op.data = ⟨cur.op.node, blockSlots - cur.op.node % blockSlots⟩ := congrArg (fun c => c.op.data) hcur
  -- the node as it is now, with the leaf found before if nothing has changed
  have hnow : ∃ c1' c2' t1, (View env.P s.st.baNext s.st.mem cur.op.raw q cur.op.node pfx false (ch2 k c1' k2 c2')) ∧ seen a t1 ∧
      At t1 q (.node cur.op.node pfx false (ch2 k c1' k2 c2')) ∧ p = childSlot cur.op.node pfx false (ch2 k c1' k2 c2') k2 ∧ c2'.isEmpty = false ∧
      (Fresh s cur.op.node cur.op.nodeGen → t1 = t ∧ ∃ lk lv, c1' = .leaf lk lv ∧ cur.op.value = trunc55 lv) := by
    by_cases hF : Fresh s cur.op.node cur.op.nodeGen
    · obtain ⟨lk, lv, c2', g1, g2, g3, ⟨b', g4⟩, g5⟩ := hfr hF
      have hv := hI.mem.core.view (b := b') g1
      rw [← g4] at hv
      exact ⟨_, c2', t, hv, hI.mem.now a hact, g1, g5, g3, fun _ => ⟨rfl, lk, lv, rfl, g2⟩⟩
    · obtain ⟨ch', g1, g2, t1, g3, g4⟩ := hI.mem.lookAt hact hs0 hat0 hraw0
      have e := g1.two hne
      refine ⟨ch' k, ch' k2, t1, by rw [← e]; exact g2, g3, by rw [← e]; exact g4, ?_, ?_, fun hf => absurd hf hF⟩
      · rw [← e, g1.childSlot]; exact hp0
      · rw [g1 rfl k2, ch2_snd]; exact hc2
  obtain ⟨c1', c2', t1, hv, hs1, hat1, hpp, hc2', hf1⟩ := hnow
  have hmem : s.st.mem p = wordOf k2 c2' := by
    have := hv.mem.kid k2 (.inr (by rw [ch2_snd]; exact hc2'))
    rw [ch2_snd] at this
    rw [hpp]; exact this
  simp only [stepD]
  rw [hmem]
  cases hc : c2' with
  | empty => rw [hc] at hc2'; cases hc2'
  | leaf lk2 lv2 =>
    rw [if_pos (by simp [wordOf])]
    have hv' := hv
    rw [hc, hrw] at hv'
    obtain ⟨nk, h1, h2⟩ := newLeafKey_spec (cur := cur0) hI hact hk hv' hne (by rw [← hrw]; exact hw.ref) hlt hka
    have h1' : cur.newLeafKey (wordOf k2 (.leaf lk2 lv2)) = .ok nk := by
      rw [hcur]; exact h1
    rw [h1']
    refine ⟨_, _, rfl, hI.moveLocal hact hu htl rfl rfl rfl ⟨?_, hcand, .inr rfl, q, pfx, hw, ?_⟩⟩
    · show cur.key ≠ []
      rw [hkey]; exact hk.ne
    · intro hf
      obtain ⟨rfl, lk, lv, g1, g2⟩ := hf1 hf
      rw [g1, hc] at hat1 hv
      refine ⟨_, hat1, hv.ref, hsl, .inr ⟨rfl, k, k2, lk, lv, lk2, lv2, rfl, hne, g2, rfl, ?_⟩⟩
      intro e
      exact h2 lk lv g1 (by rw [← hkey]; exact e)
  | node n' pfx' b' kids =>
    have hin := hv.kids k2
    rw [ch2_snd, hc] at hin
    have hwf2 := hv.wf.2.2 k2
    rw [ch2_snd, hc] at hwf2
    have haddr : nodeAddr (wordOf k2 (T.node n' pfx' b' kids)) = n' := nodeAddr_wordOf hv.hnb hin
    have hcount : nodeCount (wordOf k2 (T.node n' pfx' b' kids)) = cnt b' kids := nodeCount_wordOf hv.hnb hin hwf2
    rw [if_neg (by rw [isLeaf_wordOf hv.hnb hin]; simp [T.isLf])]
    have hsr : SeenRef (seen a) (wordOf k2 (T.node n' pfx' b' kids)) (q ++ pfx ++ [k2]) := by
      refine ⟨t1, hs1, k2, n', pfx', b', kids, ?_, rfl⟩
      have := hat1.child k2
      rwa [ch2_snd, hc] at this
    have hch : (cur.foundMerge (wordOf k2 (T.node n' pfx' b' kids))).op.child = n' := haddr
    by_cases hF : Fresh s cur.op.node cur.op.nodeGen
    · obtain ⟨rfl, lk, lv, g1, g2⟩ := hf1 hF
      rw [g1, hc] at hat1 hv
      refine ⟨_, _, rfl, hI.moveLocal hact hu htl rfl rfl rfl ⟨by rw [hkey]; exact hk.ne, hcand, rfl, hplen, hdat, q, pfx, k, k2, lk, lv, pfx', b', hw, hsr, ?_⟩⟩
      intro _
      refine ⟨kids, ⟨?_, ?_, hne, g2, hcount⟩, by show _ = wordOf k2 (T.node (nodeAddr _) _ _ _); rw [haddr]⟩
      · show At t1 q (.node _ _ _ (ch2 k _ k2 (.node (nodeAddr _) _ _ _)))
        rw [haddr]; exact hat1
      · show ∃ b, _ = wordOf b (.node _ _ _ (ch2 k _ k2 (.node (nodeAddr _) _ _ _)))
        rw [haddr]; exact hv.ref
    · exact ⟨_, _, rfl, hI.moveLocal hact hu htl rfl rfl rfl ⟨by rw [hkey]; exact hk.ne, hcand, rfl, hplen, hdat, q, pfx, k, k2, [], 0, pfx', b', hw, hsr,
        fun hf => absurd hf hF⟩⟩

theorem stepD_lock {cur : DelCur} (hp : s.proc a = .del (.lock cur)) :
    ∃ ph' st', stepD s.st (.lock cur) = .ok (ph', st') ∧ Inv env (s.set a st' (.del ph')) σ t seen := by
  have hact : (s.proc a).active = true := by rw [hp]; rfl
  have hu : (s.proc a).unl = .none := by rw [hp]; rfl
  have htl : (s.proc a).plain = true := by rw [hp]; rfl
  have hP := hI.proc a
  rw [hp] at hP
  obtain ⟨hk, hcand, hkind, q, pfx, hw, hkn⟩ := hP
  simp only [stepD]
  rcases lockNodes2_spec s.st cur.op.node cur.op.nodeGen cur.op.parent cur.op.parentGen with ⟨h1, h2, h3, h4, h5⟩ | ⟨_, h5⟩
  · rw [h5]
    obtain ⟨g1, g2, g3⟩ := W4.locked hI hw h1 h2 h3 h4
    obtain ⟨ch, g4⟩ := hkn g1
    have hul : cur.op.unl = .two cur.op.node cur.op.parent := by
      unfold DelOp.unl
      rcases hkind with e | e <;> rw [e]
    refine ⟨_, _, rfl, hI.moveLock hact hu htl rfl ?_ ?_ rfl g2 ⟨hcand, .inr (.inl ⟨hkind, q, pfx, ch, g4, g3⟩)⟩⟩
    · show cur.op.unl.list = _
      rw [hul]; rfl
    · show cur.op.unl ≠ _
      rw [hul]; simp
  · rw [h5]
    exact ⟨_, _, rfl, hI.moveLocal hact hu htl rfl rfl rfl hk⟩

/-- The generation of the child is read (possibly while another operation holds the lock for a moment). -/
theorem cgenD_inv {cur : DelCur} {p : Nat} {other : Word} {plen : Nat} (hp : s.proc a = .del (.cgen cur p other plen)) (g : Int) :
    Inv env (s.set a s.st (.del (.cptr { cur with op := { cur.op with childGen := g } } p other plen))) σ t seen := by
  have hact : (s.proc a).active = true := by rw [hp]; rfl
  have hu : (s.proc a).unl = .none := by rw [hp]; rfl
  have htl : (s.proc a).plain = true := by rw [hp]; rfl
  have hP := hI.proc a
  rw [hp] at hP
  obtain ⟨h1, h2, h3, h4, h5, q, pfx, k, k2, lk, lv, pfx2, big2, hw, hs, hm⟩ := hP
  refine hI.moveLocal hact hu htl rfl rfl rfl ⟨h1, h2, h3, h4, h5, q, pfx, k, k2, lk, lv, pfx2, big2, hw, hs, ?_⟩
  intro hf
  obtain ⟨kids, g1, g2⟩ := hm hf
  exact ⟨kids, ⟨g1.at', g1.raw, g1.ne, g1.value, g1.count⟩, g2⟩

theorem cgenD_ok {cur : DelCur} {p : Nat} {other : Word} {plen : Nat} (hp : s.proc a = .del (.cgen cur p other plen)) :
    s.st.generation cur.op.child = .ok (s.st.gen cur.op.child) := by
  have hact : (s.proc a).active = true := by rw [hp]; rfl
  have hP := hI.proc a
  rw [hp] at hP
  obtain ⟨h1, h2, h3, h4, h5, q, pfx, k, k2, lk, lv, pfx2, big2, hw, hs, hm⟩ := hP
  obtain ⟨n, pfx', big, ch, hv, _, _⟩ := hI.mem.look hact hs
  have := generation_view hv
  rwa [← hv.addr, ← h3] at this

theorem stepD_cgen {cur : DelCur} {p : Nat} {other : Word} {plen : Nat} (hp : s.proc a = .del (.cgen cur p other plen)) :
    ∃ ph' st', stepD s.st (.cgen cur p other plen) = .ok (ph', st') ∧ Inv env (s.set a st' (.del ph')) σ t seen := by
  simp only [stepD]
  rw [cgenD_ok hI hp]
  exact ⟨_, _, rfl, cgenD_inv hI hp _⟩

theorem stepD_cptr {cur : DelCur} {p : Nat} {other : Word} {plen : Nat} (hp : s.proc a = .del (.cptr cur p other plen)) :
    ∃ ph' st', stepD s.st (.cptr cur p other plen) = .ok (ph', st') ∧ Inv env (s.set a st' (.del ph')) σ t seen := by
  have hact : (s.proc a).active = true := by rw [hp]; rfl
  have hu : (s.proc a).unl = .none := by rw [hp]; rfl
  have htl : (s.proc a).plain = true := by rw [hp]; rfl
  have hP := hI.proc a
  rw [hp] at hP
  simp only [stepD]
  split
  · exact ⟨_, _, rfl, hI.moveLocal hact hu htl rfl rfl rfl hP.1⟩
  · exact ⟨_, _, rfl, hI.moveLocal hact hu htl rfl rfl rfl hP⟩

theorem stepD_lock3 {cur : DelCur} {other : Word} {plen : Nat} (hp : s.proc a = .del (.lock3 cur other plen)) (hcalm : Calm s (.run a)) :
    ∃ ph' st', stepD s.st (.lock3 cur other plen) = .ok (ph', st') ∧ Inv env (s.set a st' (.del ph')) σ t seen := by
  have hact : (s.proc a).active = true := by rw [hp]; rfl
  have hu : (s.proc a).unl = .none := by rw [hp]; rfl
  have htl : (s.proc a).plain = true := by rw [hp]; rfl
  have hP := hI.proc a
  rw [hp] at hP
  simp only [Calm, hp] at hcalm
  obtain ⟨e1, e2, e3, e4, e5, q, pfx, k, k2, lk, lv, pfx2, big2, hw, hs, hm⟩ := hP
  obtain ⟨n, pfx', big, ch, hv, _, hlive⟩ := hI.mem.look hact hw.ref
  have hn : cur.op.node = n := by rw [← hv.addr]; exact hw.node
  have hn0 : cur.op.node ≠ 0 := by have := hv.inb.1.1; omega
  simp only [stepD]
  rcases lockNodes3_spec s.st cur.op.child cur.op.childGen cur.op.node cur.op.nodeGen cur.op.parent cur.op.parentGen (fun _ => hn0) with
    ⟨h1, h2, h3, _, _, h4, h5⟩ | ⟨_, h5⟩
  · rw [h5] at hcalm
    obtain ⟨c1, c2⟩ := hcalm rfl
    rw [h5]
    obtain ⟨g1, g2, g3⟩ := W4.locked hI hw c1 h3 (fun h _ => c2 h) h4
    obtain ⟨kids, g4, g5⟩ := hm g1
    have hc := hI.mem.core
    obtain ⟨b, hb⟩ := g4.raw
    have hv1 := hc.view (b := b) g4.at'
    rw [← hb] at hv1
    have hat2 := g4.at'.child k2
    rw [ch2_snd] at hat2
    have hv2 := hc.view (b := k2) hat2
    rw [← g5] at hv2
    have a1 := hv1.append []
    have a2 := hv2.append ([] ++ pfx ++ [keyByte other])
    have a3 : { s.st with locks := bumpLocks s.st.locks (lockList3 cur.op.child cur.op.node cur.op.parent) }.nodeData cur.op.child =
        .ok ⟨cur.op.child, blockSlots - cur.op.child % blockSlots⟩ := nodeData_view hv2
    have hkb : keyByte other = k2 := by
      rw [g5]
      exact keyByte_wordOf hv2.hnb hv2.inb rfl
    simp only [e5, e4, bind, Except.bind]
    rw [a1]
    simp only
    rw [a3]
    simp only
    rw [a2]
    refine ⟨_, _, rfl, hI.moveLock hact hu htl rfl rfl (by simp [Proc.unl, DelOp.unl]) rfl ?_
      ⟨e2, .inr (.inr (.inl ⟨rfl, q, pfx, k, k2, lk, lv, pfx2, big2, kids, ⟨g4.at', ⟨b, hb⟩, g4.ne, g4.value, g4.count⟩, g3, rfl, ?_, rfl⟩))⟩⟩
    · intro m hm
      show s.st.gen m % 2 = 0
      simp only [Proc.unl, DelOp.unl, Unlock.list, lockList3] at hm
      have hnode : s.st.gen cur.op.node % 2 = 0 := by rw [c1]; exact h3
      have hchild : s.st.gen cur.op.child % 2 = 0 := by rw [h1]; exact h2
      split at hm
      · rcases List.mem_cons.1 hm with rfl | hm
        · exact hchild
        · obtain rfl := List.mem_singleton.1 hm
          exact hnode
      · rename_i hp0
        rcases List.mem_cons.1 hm with rfl | hm
        · exact hchild
        · rcases List.mem_cons.1 hm with rfl | hm
          · exact hnode
          · obtain rfl := List.mem_singleton.1 hm
            rw [c2 hp0]; exact h4 hp0
    · rw [hkb]; simp
  · rw [h5]
    exact ⟨_, _, rfl, hI.moveLocal hact hu htl rfl rfl rfl e1⟩

/-- Every step of a delete before it is prepared succeeds and preserves the invariant. -/
theorem stepD_inv {ph : DPh} (hp : s.proc a = .del ph) (hcalm : Calm s (.run a)) (h1 : ∀ cur, ph ≠ .held cur)
    (h2 : ∀ r tl, ph ≠ .tail r tl) (h3 : ∀ key, ph ≠ .miss key) :
    ∃ ph' st', stepD s.st ph = .ok (ph', st') ∧ Inv env (s.set a st' (.del ph')) σ t seen := by
  cases ph with
  | start key => exact stepD_start hI hp
  | root key root => exact stepD_root hI hp
  | gen op => exact stepD_gen hI hp
  | ptr op => exact stepD_ptr hI hp
  | par op => exact stepD_par hI hp hcalm
  | body op => exact stepD_body hI hp
  | lock op => exact stepD_lock hI hp
  | other cur p plen => exact stepD_other hI hp
  | cgen cur p other plen => exact stepD_cgen hI hp
  | cptr cur p other plen => exact stepD_cptr hI hp
  | lock3 cur other plen => exact stepD_lock3 hI hp hcalm
  | miss key => exact absurd rfl (h3 key)
  | held cur => exact absurd rfl (h1 cur)
  | tail r tl => exact absurd rfl (h2 r tl)

end

end Radix
