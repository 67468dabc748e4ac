import Verif.Sys.Rest
/-!
# Executions without overlapping updates and deletes

While no other update or delete is under way, everything an update or delete has read is still current.  Hence such executions are
calm, and there are no retries.  Lookups may run at any time.
-/
namespace Radix
open T

/-- An update or delete is under way. -/
def Proc.writer : Proc → Bool
  | .upd _ => true
  | .del _ => true
  | .updB _ _ _ => true
  | .delB _ _ => true
  | .arm _ (.update _) => true
  | .arm _ (.delete _) => true
  | _ => false

theorem Proc.writer_of_locking {p : Proc} (h : p.locking = true) : p.writer = true := by
  cases p <;> first | rfl | cases h

/-- Operations do not overlap: an operation begins only when no other is under way (and lookups and walks only when there is a block,
see C35).  The steps of `Abort` are taken apart only if it does not release a lock it does not hold (delete.go:344, see C08). -/
def Serial (s : Sys) : Act → Prop
  | .begin _ (.lookup _) => (∀ b, s.proc b = .idle) ∧ 0 < s.st.nblocks
  | .begin _ .walk => (∀ b, s.proc b = .idle) ∧ 0 < s.st.nblocks
  | .begin _ _ => ∀ b, s.proc b = .idle
  | .quit a => Calm s (.quit a)
  | _ => True

/-- Updates and deletes do not overlap: they begin only when no other one is under way.  (Lookups and walks begin when there is a block,
see C35; about `quit` see `Serial`.) -/
def OneWriter (s : Sys) : Act → Prop
  | .begin _ (.lookup _) => 0 < s.st.nblocks
  | .begin _ .walk => 0 < s.st.nblocks
  | .begin _ _ => ∀ b, (s.proc b).writer = false
  | .quit a => Calm s (.quit a)
  | _ => True

theorem Serial.oneWriter {s : Sys} {act : Act} (h : Serial s act) : OneWriter s act := by
  cases act with
  | begin a c =>
    cases c with
    | lookup key => exact h.2
    | walk => exact h.2
    | update key => intro b; rw [h b]; rfl
    | delete key => intro b; rw [h b]; rfl
  | quit a => exact h
  | _ => trivial

/-- `w` is what location `p` contains; `p` is the root or in one of the blocks in use. -/
def Cur (st : St) (p : Ptr) (w : Word) : Prop := st.load p = w ∧ ∀ x, p = .slot x → x / blockSlots < st.baNext

theorem View.cur {P} {st : St} {raw q n pfx big ch} (h : View P st.baNext st.mem raw q n pfx big ch) {c : UInt8}
    (hc : big = true ∨ (ch c).isEmpty = false) : Cur st (.slot (childSlot n pfx big ch c)) (wordOf c (ch c)) := by
  refine ⟨h.mem.kid c hc, ?_⟩
  intro x e
  injection e with e
  subst e
  obtain ⟨_, h1, h2⟩ := h.inb.1
  have h3 := idx_lt hc
  unfold nodeSize at h2
  unfold childSlot
  have : (n + prefixSlots pfx.length + idx big ch c) / blockSlots = n / blockSlots := by
    have e := Nat.div_add_mod n blockSlots
    rw [Nat.div_eq_iff (by rw [blockSlots_eq]; omega)]
    generalize n / blockSlots = d at *
    generalize n % blockSlots = r at *
    rw [blockSlots_eq] at *
    omega
  rw [this]; exact h1

theorem Cur.congr {st st' : St} {p : Ptr} {w : Word} (h : Cur st p w) (hr : st'.root = st.root)
    (hm : ∀ x, x / blockSlots < st.baNext → st'.mem x = st.mem x) (hb : st'.baNext = st.baNext) : Cur st' p w := by
  refine ⟨?_, by rw [hb]; exact h.2⟩
  rw [← h.1]
  cases p with
  | root => exact hr
  | slot x => exact hm x (h.2 x rfl)

/-- What an update has read is current. -/
def NowU (st : St) : UPh → Prop
  | .root _ root => st.root = root
  | .gen op => Cur st op.nodePtr op.raw ∧ (op.parent ≠ 0 → st.gen op.parent = op.parentGen)
  | .ptr op | .par op | .body op => Cur st op.nodePtr op.raw ∧ st.gen op.node = op.nodeGen ∧
      (op.parent ≠ 0 → st.gen op.parent = op.parentGen)
  | .lock _ op => st.gen op.node = op.nodeGen ∧ (op.parent ≠ 0 → st.gen op.parent = op.parentGen) ∧
      (op.kind.found = true → Cur st op.leafPtr op.currentLeaf)
  | .held _ op => op.kind.isRoot = false → op.kind.found = true → Cur st op.leafPtr op.currentLeaf
  | _ => True

/-- What a delete has read is current. -/
def NowD (st : St) : DPh → Prop
  | .root _ root => st.root = root
  | .gen cur => Cur st cur.op.nodePtr cur.op.raw ∧ (cur.op.parent ≠ 0 → st.gen cur.op.parent = cur.op.parentGen)
  | .ptr cur | .par cur | .body cur => Cur st cur.op.nodePtr cur.op.raw ∧ st.gen cur.op.node = cur.op.nodeGen ∧
      (cur.op.parent ≠ 0 → st.gen cur.op.parent = cur.op.parentGen)
  | .lock cur => st.gen cur.op.node = cur.op.nodeGen ∧ (cur.op.parent ≠ 0 → st.gen cur.op.parent = cur.op.parentGen)
  | .other cur p _ => st.gen cur.op.node = cur.op.nodeGen ∧ (cur.op.parent ≠ 0 → st.gen cur.op.parent = cur.op.parentGen) ∧
      ∃ w, Cur st (.slot p) w
  | .cgen cur p other _ => st.gen cur.op.node = cur.op.nodeGen ∧ (cur.op.parent ≠ 0 → st.gen cur.op.parent = cur.op.parentGen) ∧
      Cur st (.slot p) other
  | .cptr cur p other _ => st.gen cur.op.node = cur.op.nodeGen ∧ (cur.op.parent ≠ 0 → st.gen cur.op.parent = cur.op.parentGen) ∧
      Cur st (.slot p) other ∧ st.gen cur.op.child = cur.op.childGen
  | .lock3 cur _ _ => st.gen cur.op.node = cur.op.nodeGen ∧ (cur.op.parent ≠ 0 → st.gen cur.op.parent = cur.op.parentGen) ∧
      st.gen cur.op.child = cur.op.childGen
  | .held cur => cur.op.kind = .deleteLeaf256 → Cur st cur.op.leafPtr cur.op.raw ∧ ∃ p, cur.op.leafPtr = .slot p ∧ LiveSlot st p
  | _ => True

def Now (st : St) : Proc → Prop
  | .upd ph => NowU st ph
  | .del ph => NowD st ph
  | .updB op _ _ => op.kind.isRoot = false → op.kind.found = true → Cur st op.leafPtr op.currentLeaf
  | .delB cur _ => cur.op.kind = .deleteLeaf256 → Cur st cur.op.leafPtr cur.op.raw ∧ ∃ p, cur.op.leafPtr = .slot p ∧ LiveSlot st p
  | _ => True

theorem Now.reader {st : St} {p : Proc} (h : p.writer = false) : Now st p := by
  cases p <;> first | trivial | cases h

/-- At most one update or delete is under way, and what it has read is current. -/
structure SInv (s : Sys) : Prop where
  one : ∀ a b, (s.proc a).writer = true → (s.proc b).writer = true → a = b
  now : ∀ a, Now s.st (s.proc a)

/-- Bound on the number of steps until `PrepareUpdate` returns. -/
def leftU : UPh → Nat
  | .start key => 8 * key.length + 9
  | .root _ _ => 1
  | .gen op => 8 * (op.key.length - op.depth) + 7
  | .ptr op => 8 * (op.key.length - op.depth) + 6
  | .par op => 8 * (op.key.length - op.depth) + 5
  | .body op => 8 * (op.key.length - op.depth) + 4
  | .lock _ _ => 1
  | _ => 0

/-- Bound on the number of steps until `PrepareDelete` has found its answer. -/
def leftD : DPh → Nat
  | .start key => 8 * key.length + 9
  | .root _ _ => 1
  | .gen cur => 8 * (cur.key.length - cur.depth) + 8
  | .ptr cur => 8 * (cur.key.length - cur.depth) + 7
  | .par cur => 8 * (cur.key.length - cur.depth) + 6
  | .body cur => 8 * (cur.key.length - cur.depth) + 5
  | .other _ _ _ => 4
  | .cgen _ _ _ _ => 3
  | .cptr _ _ _ _ => 2
  | .lock3 _ _ _ => 1
  | .lock _ => 1
  | _ => 0

section
variable {env : Env} {s : Sys} {σ : Spec} {t : T} {seen : Nat → T → Prop} (hI : Inv env s σ t seen) (hS : SInv s) {a : Nat}

theorem Proc.writer_of_tail {p : Proc} {tl : Tail} (h : p.tail? = some tl) : p.writer = true := by
  unfold Proc.tail? at h
  split at h <;> first | rfl | cases h

theorem Proc.writer_of_unl {p : Proc} (h : p.unl ≠ .none) : p.writer = true := by
  unfold Proc.unl at h
  split at h <;> first | rfl | exact absurd rfl h

theorem Proc.writer_of_copied {p : Proc} {x : Nat} (h : 0 < p.copied x) : p.writer = true := by
  cases p <;> first | rfl | exact absurd h (Nat.lt_irrefl 0)

theorem PInvDB.copied256 {t : T} {S : T → Prop} {cur : DelCur} {cm : Commit} (h : PInvDB env s t S cur cm)
    (hk : cur.op.kind = .deleteLeaf256) (x : Nat) : (Proc.delB cur cm).copied x = 0 := by
  obtain ⟨_, q, pfx, ch, big2, kids, h2, _⟩ := h
  unfold DBlt at h2
  simp only [hk] at h2
  rw [h2]; rfl

/-- No other operation holds locks or is about to unlock, and what `a` has read is current. -/
structure Lone (s : Sys) (a : Nat) : Prop where
  free : ∀ b, b ≠ a → (s.proc b).unl = .none ∧ (s.proc b).tail? = none
  now : Now s.st (s.proc a)

include hS in
theorem SInv.lone (hp : (s.proc a).writer = true) : Lone s a := by
  refine ⟨fun b hb => ⟨?_, ?_⟩, hS.now a⟩
  · exact Classical.byContradiction fun h => hb (hS.one _ _ (Proc.writer_of_unl h) hp)
  · cases h : (s.proc b).tail? with
    | none => rfl
    | some tl => exact absurd (hS.one _ _ (Proc.writer_of_tail h) hp) hb

section
variable (hf : ∀ b, b ≠ a → (s.proc b).unl = .none ∧ (s.proc b).tail? = none)
include hf

theorem lone_noWindow (ht : (s.proc a).tail? = none) (n : Nat) : ¬ s.Window n := by
  rintro ⟨b, tl, h1, _⟩
  by_cases e : b = a
  · rw [e, ht] at h1; cases h1
  · rw [(hf b e).2] at h1; cases h1

include hI in
theorem lone_even (hu : (s.proc a).unl = .none) (n : Nat) : s.st.gen n % 2 = 0 := by
  apply Classical.byContradiction
  intro h
  obtain ⟨b, m, h1, _⟩ := hI.locks.held n (by omega)
  have : (s.proc b).unl = .none := by
    by_cases e : b = a
    · rw [e, hu]
    · exact (hf b e).1
  rw [this] at h1
  simp [Unlock.list] at h1

include hI in
theorem lone_rootFree (hu : (s.proc a).unl = .none) : s.st.rootLock = 0 := by
  rcases hI.locks.root with h | ⟨_, b, h1, _⟩
  · exact h.1
  · have : (s.proc b).unl = .none := by
      by_cases e : b = a
      · rw [e, hu]
      · exact (hf b e).1
    rw [this] at h1
    cases h1
end

include hS in
theorem SInv.noWindow (hp : (s.proc a).writer = true) (ht : (s.proc a).tail? = none) (n : Nat) : ¬ s.Window n :=
  lone_noWindow (hS.lone hp).free ht n

theorem isEmpty_of_isNode {t : T} (h : t.isNode = true) : t.isEmpty = false := by
  cases t <;> first | rfl | cases h

theorem lockNodes2_now {st : St} {node ng parent pg} (he : ∀ n, st.gen n % 2 = 0) (h1 : st.gen node = ng)
    (h2 : parent ≠ 0 → st.gen parent = pg) :
    st.lockNodes2 node ng parent pg = (true, { st with locks := bumpLocks st.locks (lockList2 node parent) }) := by
  rcases lockNodes2_spec st node ng parent pg with ⟨_, _, _, _, h⟩ | ⟨h, _⟩
  · exact h
  · exfalso
    have e1 := he node
    have e2 := he parent
    rcases h with h | h | ⟨h, h' | h'⟩
    · exact h h1
    · omega
    · exact h' (h2 h)
    · have := h2 h; omega

theorem lockNodes3_now {st : St} {child cg node ng parent pg} (he : ∀ n, st.gen n % 2 = 0) (hn : node ≠ 0) (h0 : st.gen child = cg)
    (h1 : st.gen node = ng) (h2 : parent ≠ 0 → st.gen parent = pg) :
    st.lockNodes3 child cg node ng parent pg = (true, { st with locks := bumpLocks st.locks (lockList3 child node parent) }) := by
  rcases lockNodes3_spec st child cg node ng parent pg (fun _ => hn) with ⟨_, _, _, _, _, _, h⟩ | ⟨h, _⟩
  · exact h
  · exfalso
    have e0 := he child
    have e1 := he node
    have e2 := he parent
    rcases h with h | h | h | h | ⟨h, h' | h'⟩
    · exact h h0
    · omega
    · exact h h1
    · omega
    · exact h' (h2 h)
    · have := h2 h; omega

include hI in
/-- A step of an update running alone succeeds, does not retry, and brings the end nearer. -/
theorem stepU_now (hL : Lone s a) {ph : UPh} (hp : s.proc a = .upd ph) (h1 : ∀ f op, ph ≠ .held f op) (h2 : ∀ r tl, ph ≠ .tail r tl) :
    ∃ ph' st', stepU s.st ph = .ok (ph', st') ∧ NowU st' ph' ∧ leftU ph' < leftU ph ∧ (∀ key, ph' ≠ .start key) := by
  have hne : (s.proc a).writer = true := by rw [hp]; rfl
  have hact : (s.proc a).active = true := by rw [hp]; rfl
  have hP := hI.proc a
  have hN := hL.now
  rw [hp] at hP hN
  cases ph with
  | held f op => exact absurd rfl (h1 f op)
  | tail r tl => exact absurd rfl (h2 r tl)
  | start key =>
    simp only [stepU]
    split
    · exact ⟨_, _, rfl, rfl, by simp only [leftU]; omega, by simp⟩
    · exact ⟨_, _, rfl, ⟨⟨rfl, fun x e => by cases e⟩, fun h => absurd rfl h⟩, by simp only [leftU]; omega, by simp⟩
  | root key root =>
    have hN : s.st.root = root := hN
    simp only [stepU, St.lockLeafRoot]
    simp only [if_pos (lone_rootFree hI hL.free (by rw [hp]; rfl)), if_pos hN]
    obtain ⟨k, hka, _⟩ := keyAt_zero (env.ne hP.1)
    rw [hka]
    simp only [bind, Except.bind, pure, Except.pure]
    split
    · exact ⟨_, _, rfl, by simp [NowU, UKind.isRoot], by simp [leftU], by simp⟩
    · split
      · exact ⟨_, _, rfl, by simp [NowU, UKind.isRoot], by simp [leftU], by simp⟩
      · exact ⟨_, _, rfl, by simp [NowU, UKind.isRoot], by simp [leftU], by simp⟩
  | gen op =>
    obtain ⟨q, hk, hw⟩ := hP
    obtain ⟨n, pfx, big, ch, hv, _, _⟩ := hI.mem.look hact hw.ref
    have hg : s.st.generation (nodeAddr op.raw) = .ok (s.st.gen (nodeAddr op.raw)) := by
      have := generation_view hv
      rwa [← hv.addr] at this
    simp only [stepU]
    rw [hg]
    exact ⟨_, _, rfl, ⟨hN.1, rfl, hN.2⟩, by simp only [leftU]; omega, by simp⟩
  | ptr op =>
    simp only [stepU]
    rw [if_neg (Decidable.not_not.2 hN.1.1)]
    exact ⟨_, _, rfl, hN, by simp only [leftU]; omega, by simp⟩
  | par op =>
    obtain ⟨q, hk, hw, hc⟩ := hP
    simp only [stepU]
    by_cases h : op.parent = 0
    · rw [if_pos h]
      exact ⟨_, _, rfl, hN, by simp only [leftU]; omega, by simp⟩
    · rw [if_neg h]
      have hup : op.parent / blockSlots < s.st.baNext := by
        rcases hw.up with g | ⟨_, _, g1, g2, _⟩
        · exact absurd g.1 h
        · exact g1
      have hg : s.st.generation op.parent = .ok (s.st.gen op.parent) := by
        unfold St.generation lockBlock
        rw [if_pos (Nat.lt_of_lt_of_le hup s.st.baNext_le)]
      rw [hg]
      simp only [bind, Except.bind, pure, Except.pure]
      rw [if_neg (Decidable.not_not.2 (hN.2.2 h).symm)]
      exact ⟨_, _, rfl, hN, by simp only [leftU]; omega, by simp⟩
  | body op =>
    obtain ⟨q, hk, hw, hc⟩ := hP
    obtain ⟨n, pfx, big, ch, hv, ⟨t1, hs1, hat1⟩, hlive⟩ := hI.mem.look hact hw.ref
    have hn : op.node = n := by rw [← hv.addr]; exact hw.node
    subst hn
    have hcnt : op.count = cnt big ch := by rw [hc]; exact hv.count
    simp only [stepU]
    rcases bodyU_view hv (env.adm hk.key) rfl rfl hcnt hk.path hk.depth with
      ⟨p1, kb, p2, ka, rest, k0, e1, e2, e3, e4⟩ | ⟨k, rest, e1, e2⟩
    · rw [e4]
      refine ⟨_, _, rfl, ⟨hN.2.1, hN.2.2, ?_⟩, by simp only [leftU]; omega, by simp⟩
      intro h
      simp [UpdOp.missed, UKind.found] at h
    · rw [e2]
      have hlen : op.depth + pfx.length < op.key.length := by
        rw [e1, hk.depth]; simp only [List.length_append, List.length_cons]; omega
      cases hck : ch k with
      | empty =>
        refine ⟨_, _, rfl, ?_, ?_, ?_⟩
        · cases big <;> exact ⟨hN.2.1, hN.2.2, by simp [UKind.found]⟩
        · cases big <;> (simp only [visitU, leftU]; omega)
        · cases big <;> simp [visitU]
      | leaf lk lv =>
        refine ⟨_, _, rfl, ⟨hN.2.1, hN.2.2, ?_⟩, by simp only [visitU, leftU]; omega, by simp [visitU]⟩
        intro _
        show Cur s.st (.slot (childSlot op.node pfx big ch k)) (wordOf k (.leaf lk lv))
        rw [← hck]
        exact hv.cur (.inr (by rw [hck]; rfl))
      | node n' pfx' b' kids =>
        refine ⟨_, _, rfl, ⟨?_, fun _ => hN.2.1⟩, ?_, by simp [visitU]⟩
        · show Cur s.st (.slot (childSlot op.node pfx big ch k)) (wordOf k (.node n' pfx' b' kids))
          rw [← hck]
          exact hv.cur (.inr (by rw [hck]; rfl))
        · show 8 * (op.key.length - (op.depth + pfx.length + 1)) + 7 < 8 * (op.key.length - op.depth) + 4
          omega
  | lock found op =>
    simp only [stepU]
    rw [lockNodes2_now (lone_even hI hL.free (by rw [hp]; rfl)) hN.1 hN.2.1]
    refine ⟨_, _, rfl, ?_, by simp [leftU], by simp⟩
    intro _ h
    exact hN.2.2 h

include hI in
/-- A step of a delete running alone succeeds, does not retry, and brings the end nearer. -/
theorem stepD_now (hL : Lone s a) {ph : DPh} (hp : s.proc a = .del ph) (hcalm : Calm s (.run a)) (h1 : ∀ cur, ph ≠ .held cur)
    (h2 : ∀ r tl, ph ≠ .tail r tl) (h3 : ∀ key, ph ≠ .miss key) :
    ∃ ph' st', stepD s.st ph = .ok (ph', st') ∧ NowD st' ph' ∧ leftD ph' < leftD ph ∧ (∀ key, ph' ≠ .start key) := by
  have hne : (s.proc a).writer = true := by rw [hp]; rfl
  have hact : (s.proc a).active = true := by rw [hp]; rfl
  have htl : (s.proc a).tail? = none := by
    rw [hp]; cases ph <;> first | rfl | exact absurd rfl (h2 _ _)
  have hP := hI.proc a
  have hN := hL.now
  rw [hp] at hP hN
  cases ph with
  | held cur => exact absurd rfl (h1 cur)
  | tail r tl => exact absurd rfl (h2 r tl)
  | miss key => exact absurd rfl (h3 key)
  | start key =>
    have hkey : key ≠ [] := hP
    obtain ⟨k, hka, hkh⟩ := keyAt_zero hkey
    simp only [stepD]
    split
    · exact ⟨_, _, rfl, trivial, by simp [leftD], by simp⟩
    · split
      · rw [hka]
        simp only [bind, Except.bind, pure, Except.pure]
        split
        · exact ⟨_, _, rfl, rfl, by simp only [leftD]; omega, by simp⟩
        · exact ⟨_, _, rfl, trivial, by simp [leftD], by simp⟩
      · exact ⟨_, _, rfl, ⟨⟨rfl, fun x e => by cases e⟩, fun h => absurd rfl h⟩, by simp only [leftD]; omega, by simp⟩
  | root key root =>
    have hN : s.st.root = root := hN
    simp only [stepD, St.lockLeafRoot]
    simp only [if_pos (lone_rootFree hI hL.free (by rw [hp]; rfl)), if_pos hN]
    exact ⟨_, _, rfl, by simp [NowD], by simp [leftD], by simp⟩
  | gen cur =>
    obtain ⟨q, hk, hw⟩ := hP
    obtain ⟨n, pfx, big, ch, hv, _, _⟩ := hI.mem.look hact hw.ref
    have hg : s.st.generation (nodeAddr cur.op.raw) = .ok (s.st.gen (nodeAddr cur.op.raw)) := by
      have := generation_view hv
      rwa [← hv.addr] at this
    simp only [stepD]
    rw [hg]
    exact ⟨_, _, rfl, ⟨hN.1, rfl, hN.2⟩, by simp only [leftD]; omega, by simp⟩
  | ptr cur =>
    simp only [stepD]
    rw [if_neg (Decidable.not_not.2 hN.1.1)]
    exact ⟨_, _, rfl, hN, by simp only [leftD]; omega, by simp⟩
  | par cur =>
    obtain ⟨q, hk, hw⟩ := hP
    simp only [stepD]
    by_cases h : cur.op.parent = 0
    · rw [if_pos h]
      exact ⟨_, _, rfl, hN, by simp only [leftD]; omega, by simp⟩
    · rw [if_neg h]
      have hup : cur.op.parent / blockSlots < s.st.baNext := by
        rcases hw.up with g | ⟨_, _, g1, g2, _⟩
        · exact absurd g.1 h
        · exact g1
      have hg : s.st.generation cur.op.parent = .ok (s.st.gen cur.op.parent) := by
        unfold St.generation lockBlock
        rw [if_pos (Nat.lt_of_lt_of_le hup s.st.baNext_le)]
      rw [hg]
      simp only [bind, Except.bind, pure, Except.pure]
      rw [if_neg (Decidable.not_not.2 (hN.2.2 h).symm)]
      exact ⟨_, _, rfl, hN, by simp only [leftD]; omega, by simp⟩
  | body cur =>
    obtain ⟨q, hk, hw⟩ := hP
    obtain ⟨n, pfx, big, ch, hv, ⟨t1, hs1, hat1⟩, hlive⟩ := hI.mem.look hact hw.ref
    have hv : View env.P s.st.baNext s.st.mem cur.op.raw q n pfx big ch := hv
    have hn : cur.op.node = n := by rw [← hv.addr]; exact hw.node
    subst hn
    have hat : At t q (.node cur.op.node pfx big ch) := hlive (hw.live ⟨congrArg (· / 2) hN.2.1, lone_noWindow hL.free htl _⟩)
    simp only [stepD]
    rw [bodyD_view hv rfl]
    by_cases hlt : cur.depth + pfx.length < cur.key.length
    · obtain ⟨k, hkb⟩ : ∃ k, cur.key[cur.depth + pfx.length]? = some k := by
        rw [List.getElem?_eq_getElem hlt]; exact ⟨_, rfl⟩
      have hka : keyAt cur.key (cur.depth + pfx.length) = .ok k := by unfold keyAt; rw [hkb]
      rcases childrenD_view hv (cur := cur.passed cur.op.node pfx) (k := k) (plen := nodePlen cur.op.raw) hlt hka rfl with
        ⟨e1, e2⟩ | ⟨e1, e2⟩ | ⟨lk, lv, e1, ⟨e2, e3⟩ | ⟨e2, e3, e4⟩ | ⟨k2, e2, e3, e4, e5, e6⟩⟩
      · rw [e2]
        exact ⟨_, _, rfl, trivial, by simp [leftD], by simp⟩
      · rw [e2]
        refine ⟨_, _, rfl, ⟨hv.cur (.inr ?_), fun _ => hN.2.1⟩, ?_, by simp⟩
        · exact isEmpty_of_isNode e1
        · show 8 * (cur.key.length - (cur.depth + pfx.length + 1)) + 8 < 8 * (cur.key.length - cur.depth) + 5
          omega
      · rw [e3]
        subst e2
        refine ⟨_, _, rfl, ?_, by simp [leftD], by simp⟩
        intro _
        exact ⟨hv.cur (.inl rfl), _, rfl, (liveSlot_iff hI.mem.core).2 ⟨q, _, pfx, true, ch, k, hat, .inl rfl, rfl⟩⟩
      · rw [e4]
        exact ⟨_, _, rfl, ⟨hN.2.1, hN.2.2⟩, by simp only [leftD]; omega, by simp⟩
      · rw [e6]
        subst e2
        exact ⟨_, _, rfl, ⟨hN.2.1, hN.2.2, _, hv.cur (.inr e4)⟩, by simp only [leftD]; omega, by simp⟩
    · have hmiss : childrenD s.st.mem (cur.passed cur.op.node pfx) (nodeCount cur.op.raw) (nodePlen cur.op.raw)
          ⟨cur.op.node + prefixSlots pfx.length, blockSlots - cur.op.node % blockSlots - prefixSlots pfx.length⟩ = .ok (.miss cur.key) := by
        unfold childrenD
        rw [if_pos (by show cur.depth + pfx.length ≥ cur.key.length; omega)]
        rfl
      rw [hmiss]
      exact ⟨_, _, rfl, trivial, by simp [leftD], by simp⟩
  | lock cur =>
    obtain ⟨hk, hcand, hkind, q, pfx, hw, hkn⟩ := hP
    simp only [stepD]
    rw [lockNodes2_now (lone_even hI hL.free (by rw [hp]; rfl)) hN.1 hN.2]
    refine ⟨_, _, rfl, ?_, by simp [leftD], by simp⟩
    intro h
    rcases hkind with e | e <;> rw [e] at h <;> cases h
  | other cur p plen =>
    obtain ⟨ph', st', e, _⟩ := stepD_other hI hp
    refine ⟨ph', st', e, ?_⟩
    obtain ⟨w, hw⟩ := hN.2.2
    simp only [stepD, bind, Except.bind, pure, Except.pure] at e
    split at e
    · split at e
      · cases e
      · cases e
        exact ⟨⟨hN.1, hN.2.1⟩, by simp [leftD], by simp⟩
    · cases e
      exact ⟨⟨hN.1, hN.2.1, rfl, hw.2⟩, by simp [leftD], by simp⟩
  | cgen cur p other plen =>
    obtain ⟨h1, h2, h3, h4, h5, q, pfx, k, k2, lk, lv, pfx2, big2, hw, hs, hm⟩ := hP
    obtain ⟨n, pfx', big, ch, hv, _, _⟩ := hI.mem.look hact hs
    have hg : s.st.generation cur.op.child = .ok (s.st.gen cur.op.child) := by
      have := generation_view hv
      rwa [← hv.addr, ← h3] at this
    simp only [stepD]
    rw [hg]
    exact ⟨_, _, rfl, ⟨hN.1, hN.2.1, hN.2.2, rfl⟩, by simp [leftD], by simp⟩
  | cptr cur p other plen =>
    simp only [stepD]
    have hm : s.st.mem p = other := hN.2.2.1.1
    rw [if_neg (Decidable.not_not.2 hm)]
    exact ⟨_, _, rfl, ⟨hN.1, hN.2.1, hN.2.2.2⟩, by simp [leftD], by simp⟩
  | lock3 cur other plen =>
    obtain ⟨ph', st', e, hI'⟩ := stepD_lock3 hI hp hcalm
    obtain ⟨e1, e2, e3, e4, e5, q, pfx, k, k2, lk, lv, pfx2, big2, hw, hs, hm⟩ := hP
    obtain ⟨n, pfx', big, ch, hv, _, hlive⟩ := hI.mem.look hact hw.ref
    have hn : cur.op.node = n := by rw [← hv.addr]; exact hw.node
    have hn0 : cur.op.node ≠ 0 := by have := hv.inb.1.1; omega
    have hlk := lockNodes3_now (lone_even hI hL.free (by rw [hp]; rfl)) hn0 hN.2.2 hN.1 hN.2.1
    refine ⟨ph', st', e, ?_⟩
    simp only [stepD] at e
    rw [hlk] at e
    simp only [bind, Except.bind, pure, Except.pure] at e
    split at e
    · cases e
    · split at e
      · cases e
      · split at e
        · cases e
        · injection e with e
          injection e with e e'
          subst e
          exact ⟨fun h => absurd h (by intro h; cases h), by simp [leftD], by simp⟩

include hI hS in
/-- Steps of executions without overlapping updates and deletes are calm. -/
theorem SInv.calm {act : Act} (hser : OneWriter s act) : Calm s act := by
  cases act with
  | begin a c =>
    cases c with
    | lookup key => exact hser
    | walk => exact hser
    | update key => trivial
    | delete key => trivial
  | run a =>
    have hN := hS.now a
    simp only [Calm]
    split
    · rename_i op hp
      intro _ _
      exact .inl (hS.noWindow (a := a) (by rw [hp]; rfl) (by rw [hp]; rfl) _)
    · rename_i cur hp
      intro _ _
      exact .inl (hS.noWindow (a := a) (by rw [hp]; rfl) (by rw [hp]; rfl) _)
    · rename_i cur other plen hp
      rw [hp] at hN
      exact fun _ => ⟨hN.1, hN.2.1⟩
    · trivial
  | publish a v =>
    have hN := hS.now a
    simp only [Calm]
    split
    · rename_i cur hp
      rw [hp] at hN
      intro h _
      obtain ⟨_, p, h1, h2⟩ := hN h
      refine ⟨p, h1, h2, ?_⟩
      rintro ⟨b, hb⟩
      have : b = a := hS.one _ _ (Proc.writer_of_copied hb) (by rw [hp]; rfl)
      rw [this, hp] at hb
      exact absurd hb (Nat.lt_irrefl 0)
    · trivial
  | build a v => trivial
  | commit a =>
    have hN := hS.now a
    have hP := hI.proc a
    simp only [Calm]
    split
    · rename_i cur cm hp
      rw [hp] at hN hP
      intro h _
      obtain ⟨_, p, h1, h2⟩ := hN h
      refine ⟨p, h1, h2, ?_⟩
      rintro ⟨b, hb⟩
      have : b = a := hS.one _ _ (Proc.writer_of_copied hb) (by rw [hp]; rfl)
      rw [this, hp, PInvDB.copied256 hP h] at hb
      exact absurd hb (Nat.lt_irrefl 0)
    · trivial
  | abort a =>
    simp only [Calm]
    split
    · rename_i cur hp
      intro hk hp0
      by_cases hg : s.st.gen 0 % 2 = 0
      · exact .inr (.inr hg)
      · obtain ⟨b, m, h1, h2⟩ := hI.locks.held 0 (by omega)
        have : b = a := hS.one _ _ (Proc.writer_of_unl (by intro e; rw [e] at h1; simp [Unlock.list] at h1)) (by rw [hp]; rfl)
        rw [this, hp] at h1
        have h1 : m ∈ cur.op.unl.list := h1
        simp only [DelOp.unl, hk, Unlock.list, lockList3, hp0, if_true] at h1
        rcases List.mem_cons.1 h1 with rfl | h1
        · exact .inr (.inl (sameLock_comm.1 h2))
        · obtain rfl := List.mem_singleton.1 h1
          exact .inl (sameLock_comm.1 h2)
    · trivial
  | quit a => exact hser
  | slip a => trivial
  | unlock a => trivial
  | arm a => trivial
  | tail a => trivial
  | finish a => trivial
  | flush a => trivial
  | block => trivial

include hS in
theorem SInv.others (hp : (s.proc a).writer = true) {b : Nat} (hb : b ≠ a) : (s.proc b).writer = false := by
  cases h : (s.proc b).writer with
  | false => rfl
  | true => exact absurd (hS.one _ _ h hp) hb

theorem SInv.set {st' : St} {p' : Proc} (ho : ∀ b, b ≠ a → (s.proc b).writer = false) (hN : Now st' p') : SInv (s.set a st' p') := by
  have h : ∀ b, b ≠ a → ((s.set a st' p').proc b).writer = false := fun b hb => by rw [Sys.set_other _ _ _ _ hb]; exact ho b hb
  refine ⟨?_, ?_⟩
  · intro b c hb hc
    have e1 : b = a := Classical.byContradiction fun e => by rw [h b e] at hb; cases hb
    have e2 : c = a := Classical.byContradiction fun e => by rw [h c e] at hc; cases hc
    rw [e1, e2]
  · intro b
    by_cases hb : b = a
    · subst hb; rw [Sys.set_self]; exact hN
    · exact .reader (h b hb)

include hS in
/-- A step of a reader, or a step that does not concern the tree. -/
theorem SInv.setReader {p' : Proc} (hp : (s.proc a).writer = false) (hp' : p'.writer = false) {st' : St}
    (hN : ∀ b, Now st' (s.proc b)) : SInv (s.set a st' p') := by
  have h : ∀ b, ((s.set a st' p').proc b).writer = (s.proc b).writer := by
    intro b
    by_cases hb : b = a
    · subst hb; rw [Sys.set_self, hp, hp']
    · rw [Sys.set_other _ _ _ _ hb]
  refine ⟨?_, ?_⟩
  · intro b c hb hc
    rw [h] at hb hc
    exact hS.one b c hb hc
  · intro b
    by_cases hb : b = a
    · subst hb; rw [Sys.set_self]; exact .reader hp'
    · rw [Sys.set_other _ _ _ _ hb]; exact hN b

theorem LiveSlot.congr {st st' : St} {p : Nat} (h : LiveSlot st p) (hm : st'.mem = st.mem) (hr : st'.root = st.root)
    (hb : st'.nblocks = st.nblocks) : LiveSlot st' p := by
  have hs : ∀ {w p}, SlotOf st w p → SlotOf st' w p := by
    rintro w p ⟨d, plen, slots, data, i, h1, h2, h3⟩
    refine ⟨d, plen, slots, data, i, ?_, by rw [hm]; exact h2, h3⟩
    rw [← h1]; unfold St.nodeData; rw [hb]
  have hreach : ∀ {w}, Reach st w → Reach st' w := by
    intro w h
    induction h with
    | root => rw [← hr]; exact .root
    | child _ h0 hl hsl ih => rw [← hm]; exact ih.child h0 hl (hs hsl)
  obtain ⟨w, h1, h2, h3, h4⟩ := h
  exact ⟨w, hreach h1, h2, h3, hs h4⟩

/-- What is current stays so when blocks are added and statistics are flushed. -/
theorem Now.congr {st st' : St} {p : Proc} (h : Now st p) (hr : st'.root = st.root)
    (hm : ∀ x, x / blockSlots < st.baNext → st'.mem x = st.mem x) (hb : st'.baNext = st.baNext)
    (hg : ∀ n, st'.gen n = st.gen n) (hl : ∀ p, LiveSlot st p → LiveSlot st' p) : Now st' p := by
  have hcur : ∀ {p w}, Cur st p w → Cur st' p w := fun h => h.congr hr hm hb
  cases p with
  | idle => trivial
  | arm e c => trivial
  | rd ph => trivial
  | walk => trivial
  | updB op value cm => exact fun h1 h2 => hcur (h h1 h2)
  | delB cur cm =>
    intro hk
    obtain ⟨h1, p, h2, h3⟩ := h hk
    exact ⟨hcur h1, p, h2, hl p h3⟩
  | upd ph =>
    cases ph with
    | start => trivial
    | tail => trivial
    | root key root => exact hr.trans h
    | gen op => exact ⟨hcur h.1, by rw [hg]; exact h.2⟩
    | ptr op => exact ⟨hcur h.1, by rw [hg]; exact h.2.1, by rw [hg]; exact h.2.2⟩
    | par op => exact ⟨hcur h.1, by rw [hg]; exact h.2.1, by rw [hg]; exact h.2.2⟩
    | body op => exact ⟨hcur h.1, by rw [hg]; exact h.2.1, by rw [hg]; exact h.2.2⟩
    | lock f op => exact ⟨by rw [hg]; exact h.1, by rw [hg]; exact h.2.1, fun h' => hcur (h.2.2 h')⟩
    | held f op => exact fun h1 h2 => hcur (h h1 h2)
  | del ph =>
    cases ph with
    | start => trivial
    | tail => trivial
    | miss => trivial
    | root key root => exact hr.trans h
    | gen op => exact ⟨hcur h.1, by rw [hg]; exact h.2⟩
    | ptr op => exact ⟨hcur h.1, by rw [hg]; exact h.2.1, by rw [hg]; exact h.2.2⟩
    | par op => exact ⟨hcur h.1, by rw [hg]; exact h.2.1, by rw [hg]; exact h.2.2⟩
    | body op => exact ⟨hcur h.1, by rw [hg]; exact h.2.1, by rw [hg]; exact h.2.2⟩
    | lock op => exact ⟨by rw [hg]; exact h.1, by rw [hg]; exact h.2⟩
    | other cur p plen => obtain ⟨w, hw⟩ := h.2.2; exact ⟨by rw [hg]; exact h.1, by rw [hg]; exact h.2.1, w, hcur hw⟩
    | cgen cur p other plen => exact ⟨by rw [hg]; exact h.1, by rw [hg]; exact h.2.1, hcur h.2.2⟩
    | cptr cur p other plen => exact ⟨by rw [hg]; exact h.1, by rw [hg]; exact h.2.1, hcur h.2.2.1, by rw [hg]; exact h.2.2.2⟩
    | lock3 cur other plen => exact ⟨by rw [hg]; exact h.1, by rw [hg]; exact h.2.1, by rw [hg]; exact h.2.2⟩
    | held cur =>
      intro hk
      obtain ⟨h1, p, h2, h3⟩ := h hk
      exact ⟨hcur h1, p, h2, hl p h3⟩

include hI in
/-- The leaf to be replaced by an update is stored in a slot of a node of the tree. -/
theorem held_leaf {found : Bool} {op : UpdOp} (hp : s.proc a = .upd (.held found op)) (h1 : op.kind.isRoot = false)
    (h2 : op.kind.found = true) : ∃ x, op.leafPtr = .slot x ∧ 0 < t.cover x := by
  have hP := hI.proc a
  rw [hp] at hP
  obtain ⟨_, _, _, ⟨h3, _⟩ | ⟨_, q, pfx, big, ch, hk, _⟩⟩ := hP
  · rw [h1] at h3; cases h3
  · rcases hk.kind with ⟨e, _⟩ | ⟨_, ⟨e, _⟩ | ⟨e, _⟩ | ⟨e, lk, lv, g3, g4, g5, g6, g7, g8⟩⟩
    · rw [e] at h2; cases h2
    · rw [e] at h2; cases h2
    · rw [e] at h2; cases h2
    · refine ⟨_, g8, ?_⟩
      have hr := childSlot_range (a := op.node) (pfx := pfx) (big := big) (ch := ch) (c := op.k) (by
        rcases g7 with g7 | ⟨g7, _⟩
        · exact .inr (by rw [g7]; rfl)
        · exact .inl g7)
      exact hk.at'.cover_node (by omega) hr.2

include hI hS in
theorem exec_oneWriter {act : Act} {s' : Sys} {ev : Ev} (hall : env.Allowed s act) (hser : OneWriter s act)
    (h : exec env.fetch s act = some (.ok (s', ev))) : SInv s' := by
  have hcalm := hS.calm hI hser
  cases act with
  | begin a c =>
    simp only [exec] at h
    split at h
    · rename_i hp
      split at h
      · injection h with h; injection h with h; injection h with h; subst h
        cases c with
        | lookup key => exact hS.setReader (by rw [hp]; rfl) rfl hS.now
        | walk => exact hS.setReader (by rw [hp]; rfl) rfl hS.now
        | update key => exact .set (fun b _ => hser b) trivial
        | delete key => exact .set (fun b _ => hser b) trivial
      · cases h
    · cases h
  | arm a =>
    simp only [exec] at h
    split at h
    · rename_i e c hp
      injection h with h; injection h with h; injection h with h; subst h
      cases c with
      | lookup key => exact hS.setReader (by rw [hp]; rfl) rfl fun b => (hS.now b).congr rfl (fun _ _ => rfl) rfl (fun _ => rfl) fun _ h => h.congr rfl rfl rfl
      | walk => exact hS.setReader (by rw [hp]; rfl) rfl fun b => (hS.now b).congr rfl (fun _ _ => rfl) rfl (fun _ => rfl) fun _ h => h.congr rfl rfl rfl
      | update key => exact .set (fun b hb => hS.others (by rw [hp]; rfl) hb) trivial
      | delete key => exact .set (fun b hb => hS.others (by rw [hp]; rfl) hb) trivial
    · cases h
  | run a =>
    simp only [exec] at h
    split at h
    · cases h
    · cases h
    · rename_i ph h1 h2 hp
      obtain ⟨ph', st', e, hN, _⟩ := stepU_now hI (hS.lone (by rw [hp]; rfl)) hp (fun f op e => h1 f op (by rw [e])) (fun f op e => h2 f op (by rw [e]))
      rw [e] at h
      injection h with h; injection h with h; injection h with h; subst h
      exact .set (fun b hb => hS.others (by rw [hp]; rfl) hb) hN
    · cases h
    · cases h
    · cases h
    · rename_i ph h1 h2 h3 hp
      obtain ⟨ph', st', e, hN, _⟩ := stepD_now hI (hS.lone (by rw [hp]; rfl)) hp hcalm (fun f e => h2 f (by rw [e])) (fun f op e => h3 f op (by rw [e]))
        (fun f e => h1 f (by rw [e]))
      rw [e] at h
      injection h with h; injection h with h; injection h with h; subst h
      exact .set (fun b hb => hS.others (by rw [hp]; rfl) hb) hN
    · cases h
    · rename_i ph h1 hp
      obtain ⟨ph', e, hI'⟩ := stepR_inv hI hp (fun f op e => h1 f op (by rw [e]))
      rw [e] at h
      injection h with h; injection h with h; injection h with h; subst h
      exact hS.setReader (by rw [hp]; rfl) rfl hS.now
    · cases h
  | publish a value =>
    simp only [exec] at h
    split at h
    · rename_i f op hp
      injection h with h
      cases e : publishU s.st a op (env.fetch op.value) (decide (env.fetch op.value = op.key)) value with
      | error x => rw [e] at h; cases h
      | ok r =>
        rw [e] at h
        injection h with h; injection h with h; subst h
        exact .set (fun b hb => hS.others (by rw [hp]; rfl) hb) trivial
    · rename_i cur hp
      injection h with h
      cases e : publishD s.st a cur.op with
      | error x => rw [e] at h; cases h
      | ok r =>
        rw [e] at h
        injection h with h; injection h with h; subst h
        exact .set (fun b hb => hS.others (by rw [hp]; rfl) hb) trivial
    · cases h
  | build a value =>
    simp only [exec] at h
    split at h
    · rename_i f op hp
      injection h with h
      rcases buildU_inv hI hp hall with e | ⟨cm, st', e, he, _⟩
      · rw [e] at h; cases h
      · rw [e] at h
        injection h with h; injection h with h; subst h
        refine .set (fun b hb => hS.others (by rw [hp]; rfl) hb) ?_
        have hN := hS.now a
        rw [hp] at hN
        intro h1 h2
        obtain ⟨g1, g2⟩ := hN h1 h2
        obtain ⟨x, g3, g4⟩ := held_leaf hI hp h1 h2
        refine ⟨?_, fun y hy => Nat.lt_of_lt_of_le (g2 y hy) he.baNext⟩
        rw [← g1, g3]
        refine he.mem x ?_
        have h5 := hI.mem.core.sep x
        have h6 := freeP_le (availNow s.st) s.st x
        omega
    · rename_i cur hp
      split at h
      · cases h
      injection h with h
      rcases buildD_inv hI hp (value := value) hall with e | ⟨cm, st', e, he, hI'⟩
      · rw [e] at h; cases h
      · have hN := hS.now a
        rw [hp] at hN
        have h256 : cur.op.kind = .deleteLeaf256 → st' = s.st := by
          intro hk
          unfold buildD at e
          simp only [hk, pure, Except.pure, Except.ok.injEq, Prod.mk.injEq] at e
          exact e.2.symm
        rw [e] at h
        injection h with h; injection h with h; subst h
        refine .set (fun b hb => hS.others (by rw [hp]; rfl) hb) ?_
        intro hk
        rw [h256 hk]
        exact hN hk
    · cases h
  | commit a =>
    simp only [exec] at h
    split at h
    · rename_i op value cm hp
      injection h with h; injection h with h; injection h with h; subst h
      exact .set (fun b hb => hS.others (by rw [hp]; rfl) hb) trivial
    · rename_i cur cm hp
      injection h with h; injection h with h; injection h with h; subst h
      exact .set (fun b hb => hS.others (by rw [hp]; rfl) hb) trivial
    · cases h
  | slip a =>
    obtain ⟨_, hc, hs⟩ := exec_slip_ok h
    have hw : (s.proc a).writer = true := by
      rcases hs with ⟨ph, ph', hp, _⟩ | ⟨ph, ph', hp, _⟩ <;> rw [hp] <;> rfl
    obtain ⟨b, _, hb⟩ := List.any_eq_true.1 hc
    simp only [ne_eq, Bool.and_eq_true, decide_eq_true_eq] at hb
    have hl := hS.others hw hb.1
    rw [Proc.writer_of_locking hb.2] at hl
    cases hl
  | unlock a =>
    obtain ⟨_, ⟨b, tl, u, st', hp, hs, rfl⟩ | ⟨b, tl, u, st', hp, hs, rfl⟩⟩ := exec_unlock_ok h <;>
      exact .set (fun b hb => hS.others (by rw [hp]; rfl) hb) trivial
  | quit a =>
    simp only [exec] at h
    split at h
    · rename_i f op hp
      injection h with h; injection h with h; injection h with h; subst h
      exact .set (fun b hb => hS.others (by rw [hp]; rfl) hb) trivial
    · rename_i cur hp
      injection h with h; injection h with h; injection h with h; subst h
      exact .set (fun b hb => hS.others (by rw [hp]; rfl) hb) trivial
    · cases h
  | tail a =>
    simp only [exec] at h
    split at h
    all_goals try cases h
    all_goals
      rename_i b tl hp
      injection h with h
      cases e : s.st.runTail a tl with
      | error x => rw [e] at h; cases h
      | ok r =>
        rw [e] at h
        injection h with h; injection h with h; subst h
        exact .set (fun b hb => hS.others (by rw [hp]; rfl) hb) trivial
  | abort a =>
    simp only [exec] at h
    split at h
    · rename_i f op hp
      injection h with h
      cases e : abortU s.st a op with
      | error x => rw [e] at h; cases h
      | ok r =>
        rw [e] at h
        injection h with h; injection h with h; subst h
        exact .set (fun b hb => hS.others (by rw [hp]; rfl) hb) trivial
    · rename_i cur hp
      injection h with h
      cases e : abortD s.st a cur.op with
      | error x => rw [e] at h; cases h
      | ok r =>
        rw [e] at h
        injection h with h; injection h with h; subst h
        exact .set (fun b hb => hS.others (by rw [hp]; rfl) hb) trivial
    · cases h
  | finish a =>
    simp only [exec] at h
    split at h
    · rename_i key hp
      injection h with h; injection h with h; injection h with h; subst h
      exact .set (fun b hb => hS.others (by rw [hp]; rfl) hb) trivial
    · rename_i key res hp
      injection h with h; injection h with h; injection h with h; subst h
      exact hS.setReader (by rw [hp]; rfl) rfl fun b => (hS.now b).congr rfl (fun _ _ => rfl) rfl (fun _ => rfl) fun _ h => h.congr rfl rfl rfl
    · rename_i hp
      injection h with h; injection h with h; injection h with h; subst h
      exact hS.setReader (by rw [hp]; rfl) rfl fun b => (hS.now b).congr rfl (fun _ _ => rfl) rfl (fun _ => rfl) fun _ h => h.congr rfl rfl rfl
    · cases h
  | flush a =>
    simp only [exec] at h
    split at h
    · rename_i hp
      split at h
      · rename_i ha
        injection h with h; injection h with h; injection h with h; subst h
        have hI' := flush_inv hI hp ha
        have hproc : (s.set a (s.st.flushStats a) .idle).proc = s.proc := by
          show upd s.proc a Proc.idle = s.proc
          rw [← hp]; exact upd_self _ _
        refine ⟨by rw [hproc]; exact hS.one, ?_⟩
        intro b
        rw [hproc]
        refine (hS.now b).congr rfl (fun _ _ => rfl) rfl (fun _ => rfl) ?_
        intro p hl
        exact (liveSlot_iff hI'.mem.core).2 ((liveSlot_iff hI.mem.core).1 hl)
      · cases h
    · cases h
  | block =>
    simp only [exec] at h
    injection h with h
    rcases block_inv hI with e | ⟨st', e, hI'⟩
    · rw [e] at h; cases h
    · rw [e] at h
      injection h with h; injection h with h; subst h
      refine ⟨hS.one, ?_⟩
      intro b
      have hl : ∀ p, LiveSlot s.st p → LiveSlot st' p := fun p hl =>
        (liveSlot_iff hI'.mem.core).2 ((liveSlot_iff hI.mem.core).1 hl)
      unfold St.blockStep at e
      split at e
      · injection e with e; subst e; exact hS.now b
      · split at e
        · injection e with e
          subst e
          refine (hS.now b).congr rfl ?_ rfl (fun _ => rfl) hl
          intro x hx
          simp only
          rw [if_neg (by omega)]
        · cases e

end

theorem SInv.idle {s : Sys} (h : ∀ b, s.proc b = .idle) : SInv s :=
  ⟨fun a _ ha _ => by (rw [h a] at ha; cases ha), fun a => by (rw [h a]; trivial)⟩

theorem Run.mono {env : Env} {G G' : Sys → Act → Prop} (hG : ∀ s act, G s act → G' s act) {s : Sys} {σ : Spec}
    (h : Run env G s σ) : Run env G' s σ := by
  induction h with
  | init n => exact .init n
  | reload _ hs ih => exact .reload ih hs
  | step _ hall hg he ih => exact .step ih hall (hG _ _ hg) he

theorem Run.oneWriter {env : Env} {s : Sys} {σ : Spec} (h : Run env OneWriter s σ) : Run env Calm s σ ∧ SInv s := by
  induction h with
  | init n => exact ⟨.init n, .idle fun _ => rfl⟩
  | reload _ hs ih => exact ⟨.reload ih.1 hs, .idle fun _ => rfl⟩
  | @step s σ act s' ev _ hall hser he ih =>
    obtain ⟨hr, hS⟩ := ih
    obtain ⟨t, seen, hI⟩ := hr.inv
    exact ⟨.step hr hall (hS.calm hI hser) he, exec_oneWriter hI hS hall hser he⟩

/-- The same with a further restriction. -/
theorem Run.oneWriter_and {env : Env} {H : Sys → Act → Prop} {s : Sys} {σ : Spec} (h : Run env (fun s act => OneWriter s act ∧ H s act) s σ) :
    Run env (fun s act => Calm s act ∧ H s act) s σ := by
  induction h with
  | init n => exact .init n
  | reload _ hs ih => exact .reload ih hs
  | @step s σ act s' ev h0 hall hser he ih =>
    obtain ⟨hr, hS⟩ := (h0.mono (G' := OneWriter) fun _ _ h => h.1).oneWriter
    obtain ⟨t, seen, hI⟩ := hr.inv
    exact .step ih hall ⟨hS.calm hI hser.1, hser.2⟩ he

theorem Run.serial {env : Env} {s : Sys} {σ : Spec} (h : Run env Serial s σ) : Run env Calm s σ ∧ SInv s :=
  (h.mono fun _ _ => Serial.oneWriter).oneWriter

/-- Executions without overlapping operations are calm. -/
theorem Run.calm {env : Env} {s : Sys} {σ : Spec} (h : Run env Serial s σ) : Run env Calm s σ := h.serial.1

end Radix
