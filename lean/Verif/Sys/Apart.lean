import Verif.Sys.Seq
import Verif.Sys.LockInv
import Verif.Sys.Call
/-!
# Executions in which publishing and searching do not meet

`Calm` speaks about the moment in which an operation passes the check of its parent's generation.  Here this is derived from a
restriction that does not look at generations and nodes: an operation publishes a change only when no other one has published a
change and still holds locks, or no other update or delete is searching (`Apart`).  In particular this holds if at most two updates or
deletes are under way at any time (`TwoWriters`).

The reason is the order in which `unlockNodes2` and `unlockNodes3` release the locks, from top to bottom: an operation that passes
through nodes which have just been removed from the tree finds the next one still locked.
-/
set_option autoImplicit false
namespace Radix
open T

/-! ## The restrictions -/

/-- An update or delete is on its way down. -/
def Proc.searching : Proc → Bool
  | .upd (.gen _) | .upd (.ptr _) | .upd (.par _) | .upd (.body _) => true
  | .del (.gen _) | .del (.ptr _) | .del (.par _) | .del (.body _) => true
  | _ => false

/-- Apart from `a`, no operation has published a change and still has to unlock; or no update or delete is on its way down. -/
def Sys.Quiet (s : Sys) (a : Nat) : Prop :=
  (∀ b, b ≠ a → (s.proc b).tail? = none) ∨ ∀ b, b ≠ a → (s.proc b).searching = false

/-- The three nodes of a merge use different lock words. -/
def DelOp.Distinct (op : DelOp) : Prop :=
  ¬ sameLock op.node op.child ∧ (op.parent ≠ 0 → ¬ sameLock op.parent op.child ∧ ¬ sameLock op.parent op.node)

/-- Publishing and searching do not meet.  What this says about lookups, walks, lock words, deletes in 256-slot nodes and `Abort` are
the restrictions of `Calm`; `lock3` is stated by lock words instead of generations. -/
def Apart (s : Sys) : Act → Prop
  | .begin _ (.lookup _) => 0 < s.st.nblocks
  | .begin _ .walk => 0 < s.st.nblocks
  | .run a =>
    match s.proc a with
    | .del (.lock3 cur _ _) =>
      (s.st.lockNodes3 cur.op.child cur.op.childGen cur.op.node cur.op.nodeGen cur.op.parent cur.op.parentGen).1 = true → cur.op.Distinct
    | _ => True
  | .publish a v => s.Quiet a ∧ Calm s (.publish a v)
  | .commit a => s.Quiet a ∧ Calm s (.commit a)
  | .quit a => s.Quiet a ∧ Calm s (.quit a)
  | .abort a => Calm s (.abort a)
  | _ => True

/-! ## Locks released from top to bottom -/

/-- While the lock of `n` is held, so is the lock of `m`, if the locks in the list are released one after the other. -/
inductive OrdL (n m : Nat) : List Nat → Prop
  | nil : OrdL n m []
  | cons {k : Nat} {l : List Nat} : ((∃ x ∈ k :: l, sameLock x n) → ∃ x ∈ k :: l, sameLock x m) →
      OrdL n m (l.filter fun x => lockDiffer x k) → OrdL n m (k :: l)

theorem OrdL.of_not {n m : Nat} : ∀ {l : List Nat}, (∀ x ∈ l, ¬ sameLock x n) → OrdL n m l := by
  suffices ∀ (i : Nat) (l : List Nat), l.length ≤ i → (∀ x ∈ l, ¬ sameLock x n) → OrdL n m l from fun {l} h => this l.length l (Nat.le_refl _) h
  intro i
  induction i with
  | zero =>
    intro l hl _
    cases l with
    | nil => exact .nil
    | cons => simp at hl
  | succ i ih =>
    intro l hl h
    cases l with
    | nil => exact .nil
    | cons k l =>
      refine .cons ?_ (ih _ ?_ ?_)
      · rintro ⟨x, hx, hs⟩; exact absurd hs (h x hx)
      · have := List.length_filter_le (fun x => lockDiffer x k) l
        simp at hl; omega
      · intro x hx; exact h x (by simp [(List.mem_filter.1 hx).1])

/-- The lock of `n` is released first. -/
theorem OrdL.head {n m : Nat} {l : List Nat} (h : m ∈ l) : OrdL n m (n :: l) := by
  refine .cons (fun _ => ⟨m, by simp [h], sameLock_refl _⟩) (.of_not ?_)
  intro x hx
  have := (List.mem_filter.1 hx).2
  exact (lockDiffer_iff _ _).1 this

theorem OrdL.second {p n m : Nat} (h : ¬ sameLock m p) : OrdL n m [p, n, m] := by
  refine .cons (fun _ => ⟨m, by simp, sameLock_refl _⟩) ?_
  have hm : lockDiffer m p = true := (lockDiffer_iff _ _).2 h
  simp only [List.filter_cons, hm, if_true, List.filter_nil]
  by_cases hn : lockDiffer n p = true
  · simp only [hn, if_true]; exact .head (by simp)
  · simp only [hn, if_false, Bool.false_eq_true]
    refine .of_not ?_
    intro x hx hs
    obtain rfl := List.mem_singleton.1 hx
    exact h (sameLock_trans hs ((lockDiffer_false _ _).1 (by simpa using hn)))

theorem OrdL.now {n m : Nat} {l : List Nat} (h : OrdL n m l) (hn : ∃ x ∈ l, sameLock x n) : ∃ x ∈ l, sameLock x m := by
  cases h with
  | nil => simp at hn
  | cons h1 _ => exact h1 hn

theorem OrdL.tail {n m k : Nat} {l : List Nat} (h : OrdL n m (k :: l)) : OrdL n m (l.filter fun x => lockDiffer x k) := by
  cases h with
  | cons _ h2 => exact h2

/-- Operations that have published a change and hold the lock of `n` hold the lock of `m`, until they release the lock of `n`. -/
def Sys.Ord (s : Sys) (n m : Nat) : Prop := ∀ a tl, (s.proc a).tail? = some tl → OrdL n m tl.unl.plan

theorem plan_list {u : Unlock} (h : ∀ c n p, u = .three c n p → n ≠ 0) {n : Nat} : n ∈ u.plan ↔ n ∈ u.list := by
  cases u with
  | none => simp [Unlock.plan, Unlock.list]
  | root => simp [Unlock.plan, Unlock.list]
  | two node parent => simp only [Unlock.plan, Unlock.list, lockList2]; split <;> simp; exact Or.comm
  | three c node p =>
    have := h c node p rfl
    simp only [Unlock.plan, Unlock.list, lockList3, if_neg this]
    split
    · simp; exact Or.comm
    · simp only [List.mem_cons, List.not_mem_nil, or_false]
      constructor <;> (rintro (h | h | h) <;> simp [h])
  | words l => simp [Unlock.plan, Unlock.list]

/-! ## Nodes that have just been removed -/

/-- `w` refers to a node of the tree; or to a node that is not in the tree any more, was seen before, is still in memory, and whose children
are such nodes again, locked at least as long as this node. -/
inductive Sound (s : Sys) (t : T) (S : T → Prop) : Word → Prop
  | live {w : Word} {q : Key} : LiveRef t w q → Sound s t S w
  | dead {w : Word} {t0 : T} {b : UInt8} {q : Key} {n : Nat} {pfx : List UInt8} {big : Bool} {ch : UInt8 → T} :
      w = wordOf b (.node n pfx big ch) → S t0 → At t0 q (.node n pfx big ch) → NodeMem s.st.mem n pfx big ch →
      (∀ c, (ch c).isNode = true → RefOf t (wordOf c (ch c)) ∨ s.Ord n (nodeAddr (wordOf c (ch c)))) →
      (∀ c, (ch c).isNode = true → Sound s t S (wordOf c (ch c))) → Sound s t S w

/-- The reference `raw` read from the node `parent`. -/
def Settled (s : Sys) (t : T) (S : T → Prop) (parent : Nat) (raw : Word) : Prop :=
  (RefOf t raw ∨ s.Ord parent (nodeAddr raw)) ∧ Sound s t S raw

/-- The parent has been changed by an operation that still holds its lock. -/
def PosUp (s : Sys) (t : T) (S : T → Prop) (p : Pos) : Prop :=
  p.parent ≠ 0 → s.st.gen p.parent / 2 = p.pg / 2 → s.Window p.parent → Settled s t S p.parent p.raw

/-- The node has been changed by an operation that still holds its lock. -/
def PosAt (s : Sys) (t : T) (S : T → Prop) (p : Pos) : Prop :=
  s.st.gen p.node / 2 = p.ng / 2 → s.Window p.node → Sound s t S p.raw

/-- What a searching operation knows about the nodes it has read while they are locked. -/
def PosOK (s : Sys) (t : T) (S : T → Prop) : Proc → Prop
  | .upd (.gen op) => PosUp s t S op.pos
  | .upd (.ptr op) => PosUp s t S op.pos
  | .upd (.par op) => PosUp s t S op.pos ∧ (op.parent = 0 → PosAt s t S op.pos)
  | .upd (.body op) => PosAt s t S op.pos
  | .del (.gen cur) => PosUp s t S cur.op.pos
  | .del (.ptr cur) => PosUp s t S cur.op.pos
  | .del (.par cur) => PosUp s t S cur.op.pos ∧ (cur.op.parent = 0 → PosAt s t S cur.op.pos)
  | .del (.body cur) => PosAt s t S cur.op.pos
  | _ => True

theorem PosOK.idle {s : Sys} {t : T} {S : T → Prop} {p : Proc} (h : p.searching = false) : PosOK s t S p := by
  unfold Proc.searching at h
  unfold PosOK
  split <;> simp_all

theorem Proc.searching_active {p : Proc} (h : p.searching = true) : p.active = true := by
  unfold Proc.searching at h
  split at h <;> first | rfl | cases h

/-- The locks of a prepared merge. -/
def Apart3 : Proc → Prop
  | .del (.held cur) => cur.op.kind = .replaceNodeWithNode → cur.op.parent ≠ 0 → ¬ sameLock cur.op.child cur.op.parent
  | .delB cur _ => cur.op.kind = .replaceNodeWithNode → cur.op.parent ≠ 0 → ¬ sameLock cur.op.child cur.op.parent
  | _ => True

structure AInv (s : Sys) (t : T) (seen : Nat → T → Prop) : Prop where
  pos : ∀ a, PosOK s t (seen a) (s.proc a)
  three : ∀ a, Apart3 (s.proc a)

/-! ## Steps that publish nothing -/

/-- Nobody begins to unlock, locks held by an operation that unlocks stay, and memory in use stays. -/
structure Calmly (s s' : Sys) (seen : Nat → T → Prop) : Prop where
  win : ∀ n, s'.Window n → s.Window n ∧ s'.st.gen n = s.st.gen n
  ord : ∀ n m, s.Ord n m → s'.Ord n m
  mem : ∀ b t1 x, (s.proc b).active = true → seen b t1 → 0 < t1.cover x → s'.st.mem x = s.st.mem x

section
variable {s s' : Sys} {t : T} {seen : Nat → T → Prop} {b : Nat} (h : Calmly s s' seen) (hact : (s.proc b).active = true)
include h hact

theorem Sound.calmly {w : Word} (hs : Sound s t (seen b) w) : Sound s' t (seen b) w := by
  induction hs with
  | live h1 => exact .live h1
  | @dead w t0 b' q n pfx big ch h1 h2 h3 h4 h5 _ ih =>
    refine .dead h1 h2 h3 (h4.congr ?_) ?_ ih
    · intro x hx1 hx2
      exact h.mem b t0 x hact h2 (h3.cover_node hx1 hx2)
    · intro c hc
      exact (h5 c hc).imp id (h.ord _ _)

theorem PosOK.calmly {p : Proc} (hp : PosOK s t (seen b) p) : PosOK s' t (seen b) p := by
  have up : ∀ {p : Pos}, PosUp s t (seen b) p → PosUp s' t (seen b) p := by
    intro p hp h0 h1 h2
    obtain ⟨h3, h4⟩ := h.win _ h2
    obtain ⟨h5, h6⟩ := hp h0 (by rw [← h4]; exact h1) h3
    exact ⟨h5.imp id (h.ord _ _), h6.calmly h hact⟩
  have at' : ∀ {p : Pos}, PosAt s t (seen b) p → PosAt s' t (seen b) p := by
    intro p hp h1 h2
    obtain ⟨h3, h4⟩ := h.win _ h2
    exact (hp (by rw [← h4]; exact h1) h3).calmly h hact
  unfold PosOK at hp ⊢
  split <;> simp only at hp <;> first | exact up hp | exact at' hp | exact ⟨up hp.1, fun e => at' (hp.2 e)⟩ | trivial

end

/-- ... if locks are taken or released only by the operation that takes the step, and no operation begins to unlock. -/
theorem Calmly.of_locks {s s' : Sys} {seen : Nat → T → Prop} (hL : LInv s) (hL' : LInv s') {L : List Nat}
    (hlocks : s'.st.locks = bumpLocks s.st.locks L)
    (htail : ∀ b tl', (s'.proc b).tail? = some tl' → ∃ tl, (s.proc b).tail? = some tl ∧
      (∀ n m, OrdL n m tl.unl.plan → OrdL n m tl'.unl.plan) ∧ ∀ m ∈ tl'.unl.list, m ∈ tl.unl.list)
    (hmem : ∀ b t1 x, (s.proc b).active = true → seen b t1 → 0 < t1.cover x → s'.st.mem x = s.st.mem x) : Calmly s s' seen := by
  refine ⟨?_, ?_, hmem⟩
  · rintro n ⟨b, tl', h1, m, h2, h3⟩
    obtain ⟨tl, g1, _, g2⟩ := htail b tl' h1
    refine ⟨⟨b, tl, g1, m, g2 m h2, h3⟩, ?_⟩
    have o1 := hL.odd b m (by rw [Proc.unl_of_tail g1]; exact g2 m h2)
    have o2 := hL'.odd b m (by rw [Proc.unl_of_tail h1]; exact h2)
    rw [gen_congr h3] at o1 o2
    by_cases hx : ∃ k ∈ L, sameLock k n
    · have := gen_bump_same hlocks hx
      omega
    · exact gen_bump_other hlocks hx
  · intro n m h b tl' h1
    obtain ⟨tl, g1, g2, _⟩ := htail b tl' h1
    exact g2 n m (h b tl g1)

theorem OrdL.same_tail {tl : Tail} : ∃ tl', some tl = some tl' ∧ (∀ n m, OrdL n m tl'.unl.plan → OrdL n m tl.unl.plan) ∧
    ∀ m ∈ tl.unl.list, m ∈ tl'.unl.list := ⟨tl, rfl, fun _ _ h => h, fun _ h => h⟩

/-- ... for a step of one operation that does not unlock afterwards. -/
theorem Calmly.of_set {s : Sys} {a : Nat} {st' : St} {p' : Proc} {seen : Nat → T → Prop} (hL : LInv s) (hL' : LInv (s.set a st' p')) {L : List Nat}
    (hlocks : st'.locks = bumpLocks s.st.locks L) (hp' : p'.tail? = none)
    (hmem : ∀ b t1 x, (s.proc b).active = true → seen b t1 → 0 < t1.cover x → st'.mem x = s.st.mem x) : Calmly s (s.set a st' p') seen := by
  refine .of_locks hL hL' hlocks ?_ hmem
  intro b tl' h
  by_cases hb : b = a
  · subst hb; rw [Sys.set_self, hp'] at h; cases h
  · rw [Sys.set_other _ _ _ _ hb] at h
    rw [h]; exact OrdL.same_tail

section
variable {env : Env} {s : Sys} {σ : Spec} {t : T} {seen : Nat → T → Prop} (hI : Inv env s σ t seen) (hA : AInv s t seen) {a : Nat}

include hA in
theorem AInv.quiet {s' : Sys} {seen' : Nat → T → Prop} (hc : Calmly s s' seen) (hproc : ∀ b, b ≠ a → s'.proc b = s.proc b)
    (hseen : ∀ b, b ≠ a → seen' b = seen b) (hpos : PosOK s' t (seen' a) (s'.proc a)) (h3 : Apart3 (s'.proc a)) : AInv s' t seen' := by
  refine ⟨?_, ?_⟩
  · intro b
    by_cases hb : b = a
    · subst hb; exact hpos
    · rw [hproc b hb, hseen b hb]
      by_cases hs : (s.proc b).searching = true
      · exact (hA.pos b).calmly hc (Proc.searching_active hs)
      · exact .idle (by simpa using hs)
  · intro b
    by_cases hb : b = a
    · subst hb; exact h3
    · rw [hproc b hb]; exact hA.three b

include hA in
/-- A step of an operation; its new position was fine before the step. -/
theorem AInv.move {st' : St} {p' : Proc} (hact : (s.proc a).active = true) (hc : Calmly s (s.set a st' p') seen)
    (hpos : PosOK s t (seen a) p') (h3 : Apart3 p') : AInv (s.set a st' p') t seen := by
  refine hA.quiet (a := a) hc (fun b hb => Sys.set_other _ _ _ _ hb) (fun _ _ => rfl) ?_ ?_
  · rw [Sys.set_self]; exact hpos.calmly hc hact
  · rw [Sys.set_self]; exact h3

/-! ## Going down -/

include hI

theorem RefOf.reach {w : Word} (h : RefOf t w) (hn : w ≠ 0) : Reach s.st w := by
  have hc := hI.mem.core
  rcases h with rfl | ⟨q, n, pfx, big, ch, c, hat, rfl⟩
  · rw [← hc.root]; exact .root
  · obtain ⟨b, hb⟩ := reach_at hc hat rfl
    have hv := hc.view (b := b) hat
    have hk : big = true ∨ (ch c).isEmpty = false := by
      cases hck : ch c with
      | empty => rw [hck] at hn; exact absurd rfl hn
      | leaf => right; rfl
      | node => right; rfl
    rw [← hv.mem.kid c hk]
    refine .child hb ?_ ?_ (hv.slotOf_iff.2 ⟨c, hk, rfl⟩)
    · rw [Ne, wordOf_eq_zero hv.hnb hv.inb]; simp
    · rw [isLeaf_wordOf hv.hnb hv.inb]; rfl

theorem SeenRef.word {raw : Word} {q : Key} (hact : (s.proc a).active = true) (h : SeenRef (seen a) raw q) : raw ≠ 0 := by
  obtain ⟨t0, h0, b, n, pfx, big, ch, hat, rfl⟩ := h
  rw [Ne, wordOf_eq_zero hI.mem.core.bn (hat.inBlocks (hI.mem.ok a t0 hact h0).inb)]
  simp

/-- The node to which `raw` refers, and what is known about its children. -/
theorem Sound.kids {raw : Word} {q : Key} (hact : (s.proc a).active = true) (hr : SeenRef (seen a) raw q) (h : Sound s t (seen a) raw) :
    ∃ n pfx big ch, View env.P s.st.baNext s.st.mem raw q n pfx big ch ∧
      ∀ c, (ch c).isNode = true → Settled s t (seen a) n (wordOf c (ch c)) := by
  obtain ⟨n, pfx, big, ch, hv, ⟨t1, hs1, hat1⟩, hlive⟩ := hI.mem.look hact hr
  cases h with
  | @live _ q0 h =>
    have h' := h
    obtain ⟨b, n0, pfx0, big0, ch0, hat0, e0⟩ := h'
    have en : n0 = n := by
      rw [← hv.addr, e0]; exact (nodeAddr_wordOf hv.hnb (hat0.inBlocks hI.mem.core.inb)).symm
    subst en
    have eq := hI.mem.uniq a t t1 q0 q n0 pfx0 big0 ch0 pfx big ch hact (hI.mem.now a hact) hs1 hat0 hat1
    subst eq
    have hat := hlive h
    refine ⟨n0, pfx, big, ch, hv, ?_⟩
    intro c hc
    refine ⟨.inl (.inr ⟨q0, n0, pfx, big, ch, c, hat, rfl⟩), ?_⟩
    cases hcc : ch c with
    | empty => rw [hcc] at hc; cases hc
    | leaf => rw [hcc] at hc; cases hc
    | node n2 pfx2 big2 ch2 => exact .live ⟨c, n2, pfx2, big2, ch2, hcc ▸ hat.child c, rfl⟩
  | @dead _ t0 b q0 n0 pfx0 big0 ch0 e0 h0 hat0 hm h5 h6 =>
    have hok := hI.mem.ok a t0 hact h0
    have en : n0 = n := by
      rw [← hv.addr, e0]; exact (nodeAddr_wordOf hv.hnb (hat0.inBlocks hok.inb)).symm
    subst en
    have eq := hI.mem.uniq a t0 t1 q0 q n0 pfx0 big0 ch0 pfx big ch hact h0 hs1 hat0 hat1
    subst eq
    exact ⟨n0, pfx0, big0, ch0, ⟨hv.hnb, hat0.inBlocks hok.inb, by simpa using hat0.wf hok.wf, hm, b, e0⟩, fun c hc => ⟨h5 c hc, h6 c hc⟩⟩

/-- What passing the check of the parent's generation gives. -/
theorem PosUp.sound {p : Pos} {q : Key} (hw : W2 s t (seen a) p q) (h : PosUp s t (seen a) p) (hp : p.parent ≠ 0)
    (hg : s.st.gen p.parent / 2 = p.pg / 2) : Sound s t (seen a) p.raw := by
  by_cases hwin : s.Window p.parent
  · exact (h hp hg hwin).2
  · exact .live (hw.live_of_parent hI hp ⟨hg, hwin⟩)

/-- Passing the check of the parent's generation does no harm. -/
theorem PosUp.safe {p : Pos} {q : Key} (hact : (s.proc a).active = true) (hw : W2 s t (seen a) p q) (h : PosUp s t (seen a) p) (hp : p.parent ≠ 0)
    (hg : s.st.gen p.parent / 2 = p.pg / 2) : s.Safe p.parent p.node p.raw := by
  by_cases hwin : s.Window p.parent
  · rcases (h hp hg hwin).1 with h | h
    · exact .inr (.inr (RefOf.reach hI h (SeenRef.word hI hact hw.ref)))
    · right; left
      obtain ⟨b, tl, h1, m, h2, h3⟩ := hwin
      have hP := hI.proc b
      have h4 : ∀ c n p, tl.unl = .three c n p → n ≠ 0 := by
        unfold Proc.tail? at h1
        split at h1
        · rename_i tl' e
          cases h1; rw [e] at hP; exact hP.2
        · rename_i tl' e
          cases h1; rw [e] at hP; exact hP.2
        · cases h1
      obtain ⟨x, hx1, hx2⟩ := (h b tl h1).now ⟨m, (plan_list h4).2 h2, h3⟩
      exact ⟨b, tl, h1, x, (plan_list h4).1 hx1, by rw [hw.node]; exact hx2⟩
  · exact .inl hwin

/-! ## Updates -/

theorem stepU_pos {ph ph' : UPh} {st' : St} (hp : s.proc a = .upd ph) (hpos : PosOK s t (seen a) (.upd ph)) (h1 : ∀ f op, ph ≠ .held f op)
    (h2 : ∀ r tl, ph ≠ .tail r tl) (h : stepU s.st ph = .ok (ph', st')) : PosOK s t (seen a) (.upd ph') := by
  have hact : (s.proc a).active = true := by rw [hp]; rfl
  have hP := hI.proc a
  rw [hp] at hP
  cases ph with
  | start key =>
    simp only [stepU] at h
    split at h
    · cases h; trivial
    · cases h; intro h0; exact absurd rfl h0
  | root key root =>
    simp only [stepU] at h
    split at h
    · cases h; trivial
    · obtain ⟨k, _, h⟩ := bind_ok h
      split at h
      · cases h; trivial
      · split at h <;> (cases h; trivial)
  | gen op =>
    simp only [stepU] at h
    obtain ⟨g, _, h⟩ := bind_ok h
    cases h
    exact hpos
  | ptr op =>
    obtain ⟨q, hk, hw, hc⟩ := hP
    simp only [stepU] at h
    split at h
    · cases h; trivial
    · rename_i hl
      cases h
      refine ⟨hpos, fun h0 _ _ => .live (q := q) ?_⟩
      exact hw.live_of_root hI hact h0 (Decidable.not_not.1 hl)
  | par op =>
    obtain ⟨q, hk, hw, hc⟩ := hP
    simp only [stepU] at h
    split at h
    · rename_i h0
      cases h; exact hpos.2 h0
    · rename_i h0
      rw [parU_ok hI hp h0] at h
      simp only [bind, Except.bind, pure, Except.pure] at h
      split at h
      · cases h; trivial
      · rename_i hne
        cases h
        have heq : s.st.gen op.parent = op.parentGen := (Decidable.not_not.1 hne).symm
        intro _ _
        exact PosUp.sound hI hw.toW2 hpos.1 h0 (by show s.st.gen op.parent / 2 = op.parentGen / 2; rw [heq])
  | body op =>
    obtain ⟨q, hk, hw, hc⟩ := hP
    simp only [stepU] at h
    obtain ⟨ph1, hb, h⟩ := bind_ok h
    cases h
    have key : ∀ n pfx big ch, View env.P s.st.baNext s.st.mem op.raw q n pfx big ch → op.node = n ∧ ((∃ f op', ph' = .lock f op') ∨
        ∃ op' k, ph' = .gen op' ∧ op'.pos.parent = op.node ∧ op'.pos.pg = op.nodeGen ∧ (ch k).isNode = true ∧ op'.pos.raw = wordOf k (ch k)) := by
      intro n pfx big ch hv
      have hn : op.node = n := by rw [← hv.addr]; exact hw.node
      refine ⟨hn, ?_⟩
      rcases bodyU_view hv (env.adm hk.key) hn rfl (by rw [hc]; exact hv.count) hk.path hk.depth with
        ⟨p1, kb, p2, ka, rest, k0, _, _, _, e⟩ | ⟨k, rest, _, e⟩
      · rw [e] at hb; cases hb; exact .inl ⟨_, _, rfl⟩
      · rw [e] at hb
        cases hck : ch k with
        | empty => rw [hck] at hb; cases hb; exact .inl ⟨_, _, rfl⟩
        | leaf => rw [hck] at hb; cases hb; exact .inl ⟨_, _, rfl⟩
        | node => rw [hck] at hb; cases hb; exact .inr ⟨_, k, rfl, rfl, rfl, by rw [hck]; rfl, by rw [hck]; rfl⟩
    obtain ⟨n, pfx, big, ch, hv, _, _⟩ := hI.mem.look hact hw.ref
    rcases (key n pfx big ch hv).2 with ⟨f, op', rfl⟩ | ⟨op', k, rfl, e1, e2, _⟩
    · trivial
    · intro h0 hg hwin
      rw [e1, e2] at hg
      rw [e1] at hwin
      obtain ⟨n', pfx', big', ch', hv', hgood⟩ := Sound.kids hI hact hw.ref (hpos hg hwin)
      obtain ⟨hn, ⟨_, _, h⟩ | ⟨op'', k', h, _, _, g3, g4⟩⟩ := key n' pfx' big' ch' hv'
      · cases h
      · cases h
        rw [e1, g4, hn]
        exact hgood k' g3
  | lock found op =>
    simp only [stepU] at h
    split at h <;> (cases h; trivial)
  | held f op => exact absurd rfl (h1 f op)
  | tail r tl => exact absurd rfl (h2 r tl)

theorem slipU_pos {ph ph' : UPh} (hp : s.proc a = .upd ph) (hpos : PosOK s t (seen a) (.upd ph)) (h : slipU s.st ph = some (.ok ph')) :
    PosOK s t (seen a) (.upd ph') := by
  have hP := hI.proc a
  rw [hp] at hP
  cases ph with
  | root key root => cases h; trivial
  | gen op =>
    simp only [slipU] at h
    split at h
    · rw [genU_ok hI hp] at h
      cases h
      exact hpos
    · cases h
  | par op =>
    obtain ⟨q, hk, hw, hc⟩ := hP
    simp only [slipU] at h
    split at h
    · rename_i he
      rw [parU_ok hI hp he.1] at h
      simp only [bind, Except.bind, pure, Except.pure] at h
      split at h
      · cases h; trivial
      · rename_i hne
        cases h
        have : op.parentGen = s.st.gen op.parent + 1 := Decidable.not_not.1 hne
        have he2 := he.2
        intro _ _
        exact PosUp.sound hI hw.toW2 hpos.1 he.1 (by show s.st.gen op.parent / 2 = op.parentGen / 2; omega)
    · cases h
  | lock found op => cases h; trivial
  | start key => cases h
  | ptr op => cases h
  | body op => cases h
  | held f op => cases h
  | tail b tl => cases h

/-! ## Deletes -/

theorem stepD_pos {ph ph' : DPh} {st' : St} (hp : s.proc a = .del ph) (hpos : PosOK s t (seen a) (.del ph)) (h1 : ∀ cur, ph ≠ .held cur)
    (h2 : ∀ r tl, ph ≠ .tail r tl) (hap : Apart s (.run a)) (h : stepD s.st ph = .ok (ph', st')) :
    PosOK s t (seen a) (.del ph') ∧ Apart3 (.del ph') := by
  have hact : (s.proc a).active = true := by rw [hp]; rfl
  have hP := hI.proc a
  rw [hp] at hP
  cases ph with
  | start key =>
    simp only [stepD] at h
    split at h
    · cases h; exact ⟨trivial, trivial⟩
    · split at h
      · obtain ⟨k, _, h⟩ := bind_ok h
        split at h <;> (cases h; exact ⟨trivial, trivial⟩)
      · cases h; exact ⟨fun h0 => absurd rfl h0, trivial⟩
  | root key root =>
    simp only [stepD] at h
    split at h
    · cases h; exact ⟨trivial, trivial⟩
    · cases h; exact ⟨trivial, by intro h; cases h⟩
  | gen cur =>
    simp only [stepD] at h
    obtain ⟨g, _, h⟩ := bind_ok h
    cases h
    exact ⟨hpos, trivial⟩
  | ptr cur =>
    obtain ⟨q, hk, hw⟩ := hP
    simp only [stepD] at h
    split at h
    · cases h; exact ⟨trivial, trivial⟩
    · rename_i hl
      cases h
      refine ⟨⟨hpos, fun h0 _ _ => .live (q := q) ?_⟩, trivial⟩
      exact hw.live_of_root hI hact h0 (Decidable.not_not.1 hl)
  | par cur =>
    obtain ⟨q, hk, hw⟩ := hP
    simp only [stepD] at h
    split at h
    · rename_i h0
      cases h; exact ⟨hpos.2 h0, trivial⟩
    · rename_i h0
      rw [parD_ok hI hp h0] at h
      simp only [bind, Except.bind, pure, Except.pure] at h
      split at h
      · cases h; exact ⟨trivial, trivial⟩
      · rename_i hne
        cases h
        have heq : s.st.gen cur.op.parent = cur.op.parentGen := (Decidable.not_not.1 hne).symm
        refine ⟨fun _ _ => ?_, trivial⟩
        exact PosUp.sound hI hw.toW2 hpos.1 h0 (by show s.st.gen cur.op.parent / 2 = cur.op.parentGen / 2; rw [heq])
  | body cur =>
    obtain ⟨q, hk, hw⟩ := hP
    simp only [stepD] at h
    obtain ⟨ph1, hb, h⟩ := bind_ok h
    cases h
    have key : ∀ n pfx big ch, View env.P s.st.baNext s.st.mem cur.op.raw q n pfx big ch → cur.op.node = n ∧
        ((PosOK s t (seen a) (.del ph') ∧ Apart3 (.del ph') ∧ ∀ cur', ph' ≠ .gen cur') ∨
        ∃ cur' k, ph' = .gen cur' ∧ cur'.op.pos.parent = cur.op.node ∧ cur'.op.pos.pg = cur.op.nodeGen ∧ (ch k).isNode = true ∧
          cur'.op.pos.raw = wordOf k (ch k)) := by
      intro n pfx big ch hv
      have hn : cur.op.node = n := by rw [← hv.addr]; exact hw.node
      refine ⟨hn, ?_⟩
      rw [bodyD_view hv hn] at hb
      by_cases hlt : cur.depth + pfx.length < cur.key.length
      · obtain ⟨k, hkb⟩ : ∃ k, cur.key[cur.depth + pfx.length]? = some k := by
          rw [List.getElem?_eq_getElem hlt]; exact ⟨_, rfl⟩
        have hka : keyAt cur.key (cur.depth + pfx.length) = .ok k := by unfold keyAt; rw [hkb]
        rcases childrenD_view hv (cur := cur.passed n pfx) (k := k) (plen := nodePlen cur.op.raw) hlt hka rfl with
          ⟨e1, e2⟩ | ⟨e1, e2⟩ | ⟨lk, lv, e1, ⟨e2, e3⟩ | ⟨e2, e3, e4⟩ | ⟨k2, e2, e3, e4, e5, e6⟩⟩
        · rw [e2] at hb; cases hb; exact .inl ⟨trivial, trivial, by intro _ h; cases h⟩
        · rw [e2] at hb; cases hb; exact .inr ⟨_, k, rfl, rfl, rfl, e1, rfl⟩
        · rw [e3] at hb; cases hb; exact .inl ⟨trivial, (by intro h; cases h), by intro _ h; cases h⟩
        · rw [e4] at hb; cases hb; exact .inl ⟨trivial, trivial, by intro _ h; cases h⟩
        · rw [e6] at hb; cases hb; exact .inl ⟨trivial, trivial, by intro _ h; cases h⟩
      · unfold childrenD at hb
        rw [if_pos (by show cur.depth + pfx.length ≥ cur.key.length; omega)] at hb
        cases hb; exact .inl ⟨trivial, trivial, by intro _ h; cases h⟩
    obtain ⟨n, pfx, big, ch, hv, _, _⟩ := hI.mem.look hact hw.ref
    rcases (key n pfx big ch hv).2 with ⟨h3, h4, _⟩ | ⟨cur', k, rfl, e1, e2, _⟩
    · exact ⟨h3, h4⟩
    · refine ⟨?_, trivial⟩
      intro h0 hg hwin
      rw [e1, e2] at hg
      rw [e1] at hwin
      obtain ⟨n', pfx', big', ch', hv', hgood⟩ := Sound.kids hI hact hw.ref (hpos hg hwin)
      obtain ⟨hn, ⟨_, _, h⟩ | ⟨cur'', k', h, _, _, g3, g4⟩⟩ := key n' pfx' big' ch' hv'
      · exact absurd rfl (h cur')
      · cases h
        rw [e1, g4, hn]
        exact hgood k' g3
  | lock cur =>
    simp only [stepD] at h
    split at h
    · cases h
      refine ⟨trivial, ?_⟩
      intro hk
      rcases hP.2.2.1 with h | h <;> (rw [hk] at h; cases h)
    · cases h; exact ⟨trivial, trivial⟩
  | other cur p plen =>
    simp only [stepD] at h
    split at h
    · obtain ⟨k, _, h⟩ := bind_ok h
      cases h; exact ⟨trivial, trivial⟩
    · cases h; exact ⟨trivial, trivial⟩
  | cgen cur p other plen =>
    simp only [stepD] at h
    obtain ⟨k, _, h⟩ := bind_ok h
    cases h; exact ⟨trivial, trivial⟩
  | cptr cur p other plen =>
    simp only [stepD] at h
    split at h <;> (cases h; exact ⟨trivial, trivial⟩)
  | lock3 cur other plen =>
    simp only [Apart, hp] at hap
    simp only [stepD] at h
    split at h
    · cases h; exact ⟨trivial, trivial⟩
    · rename_i st1 e
      rw [e] at hap
      obtain ⟨⟨_, _⟩, _, h⟩ := bind_ok h
      simp only at h
      obtain ⟨_, _, h⟩ := bind_ok h
      obtain ⟨⟨_, _⟩, _, h⟩ := bind_ok h
      cases h
      refine ⟨trivial, fun _ h0 hs => ?_⟩
      exact ((hap rfl).2 h0).1 (sameLock_comm.1 hs)
  | miss key =>
    simp only [stepD] at h
    cases h; exact ⟨trivial, trivial⟩
  | held cur => exact absurd rfl (h1 cur)
  | tail r tl => exact absurd rfl (h2 r tl)

theorem slipD_pos {ph ph' : DPh} (hp : s.proc a = .del ph) (hpos : PosOK s t (seen a) (.del ph)) (h : slipD s.st ph = some (.ok ph')) :
    PosOK s t (seen a) (.del ph') ∧ Apart3 (.del ph') := by
  have hP := hI.proc a
  rw [hp] at hP
  cases ph with
  | root key root => cases h; exact ⟨trivial, trivial⟩
  | gen cur =>
    simp only [slipD] at h
    split at h
    · rw [genD_ok hI hp] at h
      cases h
      exact ⟨hpos, trivial⟩
    · cases h
  | par cur =>
    obtain ⟨q, hk, hw⟩ := hP
    simp only [slipD] at h
    split at h
    · rename_i he
      rw [parD_ok hI hp he.1] at h
      simp only [bind, Except.bind, pure, Except.pure] at h
      split at h
      · cases h; exact ⟨trivial, trivial⟩
      · rename_i hne
        cases h
        have : cur.op.parentGen = s.st.gen cur.op.parent + 1 := Decidable.not_not.1 hne
        have he2 := he.2
        refine ⟨fun _ _ => ?_, trivial⟩
        exact PosUp.sound hI hw.toW2 hpos.1 he.1 (by show s.st.gen cur.op.parent / 2 = cur.op.parentGen / 2; omega)
    · cases h
  | lock cur => cases h; exact ⟨trivial, trivial⟩
  | other cur p plen => cases h
  | cgen cur p other plen =>
    simp only [slipD] at h
    split at h
    · rw [cgenD_ok hI hp] at h
      cases h
      exact ⟨trivial, trivial⟩
    · cases h
  | lock3 cur other plen => cases h; exact ⟨trivial, trivial⟩
  | start key => cases h
  | ptr op => cases h
  | body op => cases h
  | cptr cur p other plen => cases h
  | miss key => cases h
  | held cur => cases h
  | tail b tl => cases h

/-! ## The restrictions of `Calm` -/

include hA in
theorem Apart.calm {act : Act} (hap : Apart s act) : Calm s act := by
  cases act with
  | begin a c => cases c <;> exact hap
  | run a =>
    have hP := hI.proc a
    have hpos := hA.pos a
    simp only [Calm]
    split
    · rename_i op hp
      rw [hp] at hP hpos
      obtain ⟨q, hk, hw, hc⟩ := hP
      intro h0 hg
      exact PosUp.safe hI (a := a) (by rw [hp]; rfl) hw.toW2 hpos.1 h0 (by show s.st.gen op.parent / 2 = op.parentGen / 2; rw [hg])
    · rename_i cur hp
      rw [hp] at hP hpos
      obtain ⟨q, hk, hw⟩ := hP
      intro h0 hg
      exact PosUp.safe hI (a := a) (by rw [hp]; rfl) hw.toW2 hpos.1 h0 (by show s.st.gen cur.op.parent / 2 = cur.op.parentGen / 2; rw [hg])
    · rename_i cur other plen hp
      simp only [Apart, hp] at hap
      rw [hp] at hP
      intro hl
      obtain ⟨d1, d2⟩ := hap hl
      obtain ⟨_, _, _, _, _, q, pfx, k, k2, lk, lv, pfx2, big2, hw, _⟩ := hP
      obtain ⟨t0, h0, b, n, pfx', big, ch, hat, hraw⟩ := hw.ref
      have hact : (s.proc a).active = true := by rw [hp]; rfl
      have hin := hat.inBlocks (hI.mem.ok a t0 hact h0).inb
      have hn : cur.op.node ≠ 0 := by
        have e : cur.op.node = n := by
          have := hw.node
          rw [hraw, nodeAddr_wordOf hI.mem.core.bn hin] at this
          exact this
        rw [e]
        have := hin.1.1
        omega
      rcases lockNodes3_spec s.st cur.op.child cur.op.childGen cur.op.node cur.op.nodeGen cur.op.parent cur.op.parentGen (fun _ => hn) with
        ⟨_, _, _, g1, g2, _⟩ | ⟨_, e⟩
      · exact ⟨g1 d1, fun h0 => g2 h0 (d2 h0).1 (d2 h0).2⟩
      · rw [e] at hl; cases hl
    · trivial
  | publish a v => exact hap.2
  | commit a => exact hap.2
  | quit a => exact hap.2
  | abort a => exact hap
  | _ => trivial

/-! ## Publishing -/

omit hI in
/-- The node whose child a subtree is. -/
theorem At.unsnoc {t t' : T} : ∀ {p : Key}, At t p t' → ∀ {q : Key} {c : UInt8}, p = q ++ [c] →
    ∃ q0 n pfx big ch, At t q0 (.node n pfx big ch) ∧ ch c = t' := by
  intro p h
  induction h with
  | here t => intro q c e; simp at e
  | @down n pfx big ch c' r t' h ih =>
    intro q c e
    rcases List.eq_nil_or_concat r with rfl | ⟨r', d, rfl⟩
    · have e1 : c' = c := by
        have := congrArg List.getLast? e
        simpa using this
      subst e1
      exact ⟨[], n, pfx, big, ch, .here _, (At.inv_nil h).symm⟩
    · have e1 : d = c := by
        have e' : (pfx ++ c' :: r') ++ [d] = q ++ [c] := by rw [← e]; simp
        simpa using (List.append_inj' e' rfl).2
      subst e1
      obtain ⟨q0, n2, pfx2, big2, ch2, h1, h2⟩ := ih (q := r') (c := d) (by simp)
      exact ⟨pfx ++ c' :: q0, n2, pfx2, big2, ch2, .down h1, h2⟩

omit hI in
/-- The locks of a node and of its child are released in this order. -/
def Ordered (t : T) (u : Unlock) : Prop :=
  ∀ q n pfx big ch c m pfx2 big2 ch2, At t q (.node n pfx big ch) → ch c = .node m pfx2 big2 ch2 → n ∈ u.list → m ∈ u.list → OrdL n m u.plan

/-- A node of the tree stays reachable by the same reference, or is locked while its parent is. -/
def Linked (t t' : T) (u : Unlock) : Prop :=
  ∀ q n pfx big ch c, At t q (.node n pfx big ch) → (ch c).isNode = true →
    RefOf t' (wordOf c (ch c)) ∨ OrdL n (nodeAddr (wordOf c (ch c))) u.plan

theorem Swap.linked {st' : St} {t' : T} {u : Unlock} (hwf : t'.WF env.P []) (h : Swap s.st st' t t' u.list)
    (ho : Ordered t u) : Linked t t' u := by
  intro q n pfx big ch c hat hn
  cases hc : ch c with
  | empty => rw [hc] at hn; cases hn
  | leaf => rw [hc] at hn; cases hn
  | node m pfx2 big2 ch2 =>
    by_cases h1 : n ∈ u.list
    · by_cases h2 : m ∈ u.list
      · right
        have e : nodeAddr (wordOf c (.node m pfx2 big2 ch2)) = m := by
          refine nodeAddr_wordOf hI.mem.core.bn ?_
          rw [← hc]; exact (hat.child c).inBlocks hI.mem.core.inb
        rw [e]
        exact ho q n pfx big ch c m pfx2 big2 ch2 hat hc h1 h2
      · left
        have hat2 : At t (q ++ pfx ++ [c]) (.node m pfx2 big2 ch2) := hc ▸ hat.child c
        obtain ⟨ch2', g1, _⟩ := h.stable _ _ _ _ _ hat2 h2
        rcases h.keep _ _ _ _ _ hat2 with ⟨ch3, g2, g3⟩ | g2
        · obtain ⟨q0, n0, pfx0, big0, ch0, k1, k2⟩ := g2.unsnoc (q := q ++ pfx) (c := c) (by simp)
          refine .inr ⟨q0, n0, pfx0, big0, ch0, c, k1, ?_⟩
          rw [k2]
          simp only [wordOf, g3.cnt]
        · exfalso
          have h3 := nodeSize_pos (hat2.wf hI.mem.core.wf)
          have h4 := nodeSize_pos (g1.wf hwf)
          have k1 := g1.cover_node (x := m) (Nat.le_refl _) (by omega)
          have k2 := g2 m (Nat.le_refl _) (by omega)
          omega
    · left
      obtain ⟨ch', g1, g2⟩ := h.stable _ _ _ _ _ hat h1
      have g2 := g2 c
      refine .inr ⟨q, n, pfx, big, ch', c, g1, ?_⟩
      rw [hc] at g2
      rcases g2 with g2 | ⟨a, pfx3, b3, ch3, ch3', e1, e2, e3⟩ | ⟨_, g2, _⟩
      · rw [g2]
      · cases e1
        rw [e2]; simp only [wordOf, e3]
      · cases g2

omit hI in
theorem Linked.refl (t : T) (u : Unlock) : Linked t t u :=
  fun q n pfx big ch c h _ => .inl (.inr ⟨q, n, pfx, big, ch, c, h, rfl⟩)

variable {t' : T} {s' : Sys} {S' : T → Prop}

/-- The nodes of the tree before a change is published. -/
theorem Sound.of_at (hS : S' t) (hkeep : Keep t t') (hmem : ∀ x, 0 < t.cover x → t'.cover x = 0 → s'.st.mem x = s.st.mem x)
    (hlink : ∀ q n pfx big ch c, At t q (.node n pfx big ch) → (ch c).isNode = true →
      RefOf t' (wordOf c (ch c)) ∨ s'.Ord n (nodeAddr (wordOf c (ch c)))) :
    ∀ (t1 : T) (q : Key), At t q t1 → t1.isNode = true → ∀ b, Sound s' t' S' (wordOf b t1) := by
  intro t1
  induction t1 with
  | empty => intro _ _ h; cases h
  | leaf => intro _ _ h; cases h
  | node n pfx big ch ih =>
    intro q hat _ b
    rcases hkeep _ _ _ _ _ hat with ⟨ch', g1, g2⟩ | g
    · exact .live ⟨b, n, pfx, big, ch', g1, by simp only [wordOf, g2.cnt]⟩
    · refine .dead rfl hS hat ?_ (fun c hc => hlink q n pfx big ch c hat hc) (fun c hc => ih c _ (hat.child c) hc c)
      refine (hat.repr hI.mem.core.repr).1.congr ?_
      intro x h1 h2
      exact hmem x (hat.cover_node h1 h2) (g x h1 h2)

/-- What a searching operation knows stays true when another operation publishes a change, while nobody unlocks. -/
theorem PosOK.swap {b : Nat} (hwin : ∀ n, ¬ s.Window n) (hgen : ∀ n, s'.st.gen n = s.st.gen n)
    (hS : S' t) (hkeep : Keep t t') (hmem : ∀ x, 0 < t.cover x → t'.cover x = 0 → s'.st.mem x = s.st.mem x)
    (hlink : ∀ q n pfx big ch c, At t q (.node n pfx big ch) → (ch c).isNode = true →
      RefOf t' (wordOf c (ch c)) ∨ s'.Ord n (nodeAddr (wordOf c (ch c)))) : PosOK s' t' S' (s.proc b) := by
  have hP := hI.proc b
  have hsound := Sound.of_at hI hS hkeep hmem hlink
  have up : ∀ {p : Pos} {q : Key}, W1 s t (seen b) p q → PosUp s' t' S' p := by
    intro p q hw h0 hg _
    rcases hw.up with g | ⟨_, _, _, _, g⟩
    · exact absurd g.1 h0
    · obtain ⟨q0, pfx, big, ch, c, g1, _, _, g4, g5⟩ := g ⟨by rw [← hgen]; exact hg, hwin _⟩
      rw [g5] at *
      unfold Settled
      rw [g5]
      exact ⟨hlink q0 _ pfx big ch c g1 g4, hsound _ _ (g1.child c) g4 c⟩
  have at' : ∀ {p : Pos} {q : Key}, (Fresh s p.node p.ng → LiveRef t p.raw q) → PosAt s' t' S' p := by
    intro p q hw hg _
    obtain ⟨b, n, pfx, big, ch, g1, g2⟩ := hw ⟨by rw [← hgen]; exact hg, hwin _⟩
    rw [g2]
    exact hsound _ _ g1 rfl b
  unfold PosOK
  split
  · rename_i op hp
    rw [hp] at hP; obtain ⟨q, _, hw⟩ := hP; exact up hw
  · rename_i op hp
    rw [hp] at hP; obtain ⟨q, _, hw, _⟩ := hP; exact up hw.toW1
  · rename_i op hp
    rw [hp] at hP; obtain ⟨q, _, hw, _⟩ := hP; exact ⟨up hw.toW1, fun h0 => at' (hw.live0 h0)⟩
  · rename_i op hp
    rw [hp] at hP; obtain ⟨q, _, hw, _⟩ := hP; exact at' hw.live
  · rename_i op hp
    rw [hp] at hP; obtain ⟨q, _, hw⟩ := hP; exact up hw
  · rename_i op hp
    rw [hp] at hP; obtain ⟨q, _, hw⟩ := hP; exact up hw.toW1
  · rename_i op hp
    rw [hp] at hP; obtain ⟨q, _, hw⟩ := hP; exact ⟨up hw.toW1, fun h0 => at' (hw.live0 h0)⟩
  · rename_i op hp
    rw [hp] at hP; obtain ⟨q, _, hw⟩ := hP; exact at' hw.live
  · trivial

include hA in
/-- An operation publishes its change, or is aborted. -/
theorem AInv.publish {st' : St} {p' : Proc} {tl : Tail} {seen' : Nat → T → Prop} (hq : s.Quiet a) (htl : (s.proc a).tail? = none)
    (hp' : p'.tail? = some tl) (hlocks : st'.locks = s.st.locks) (hkeep : Keep t t')
    (hmem : ∀ x, 0 < t.cover x → t'.cover x = 0 → st'.mem x = s.st.mem x) (hlink : Linked t t' tl.unl)
    (hseen : ∀ b x, seen b x → seen' b x) : AInv (s.set a st' p') t' seen' := by
  have hns : p'.searching = false := by
    unfold Proc.tail? at hp'
    split at hp' <;> first | rfl | cases hp'
  refine ⟨?_, ?_⟩
  · intro b
    by_cases hb : b = a
    · subst hb; rw [Sys.set_self]; exact .idle hns
    · rw [Sys.set_other _ _ _ _ hb]
      by_cases hs : (s.proc b).searching = true
      · rcases hq with hq | hq
        · have hact := Proc.searching_active hs
          have htails : ∀ c, (s.proc c).tail? = none := fun c => by
            by_cases hc : c = a
            · subst hc; exact htl
            · exact hq c hc
          refine PosOK.swap hI ?_ (fun n => gen_of_locks hlocks n) (hseen b t (hI.mem.now b hact)) hkeep hmem ?_
          · rintro n ⟨c, tl', h1, _⟩
            rw [htails c] at h1; cases h1
          · intro q n pfx big ch c hat hn
            refine (hlink q n pfx big ch c hat hn).imp id ?_
            intro h d tl' h1
            by_cases hd : d = a
            · subst hd
              rw [Sys.set_self, hp'] at h1
              cases h1
              exact h
            · rw [Sys.set_other _ _ _ _ hd, htails d] at h1; cases h1
        · rw [hq b hb] at hs; cases hs
      · exact .idle (by simpa using hs)
  · intro b
    by_cases hb : b = a
    · subst hb; rw [Sys.set_self]
      unfold Proc.tail? at hp'
      split at hp' <;> first | trivial | cases hp'
    · rw [Sys.set_other _ _ _ _ hb]; exact hA.three b

/-! ## The order of the locks -/

/-- A node has one path. -/
theorem Inv.path (hact : (s.proc a).active = true) {n : Nat} {q1 q2 pfx1 pfx2 big1 big2 ch1 ch2} (h1 : At t q1 (.node n pfx1 big1 ch1))
    (h2 : At t q2 (.node n pfx2 big2 ch2)) : q1.length = q2.length := by
  have := hI.mem.now a hact
  rw [hI.mem.uniq a t t q1 q2 n pfx1 big1 ch1 pfx2 big2 ch2 hact this this h1 h2]

omit hI in
theorem child_path {t : T} {q n pfx big ch c m pfx2 big2 ch2} (h : At t q (.node n pfx big ch)) (hc : ch c = .node m pfx2 big2 ch2) :
    ∃ q2, q.length < q2.length ∧ At t q2 (.node m pfx2 big2 ch2) :=
  ⟨q ++ pfx ++ [c], by simp, hc ▸ h.child c⟩

theorem ordered_two (hact : (s.proc a).active = true) {p : Pos} {q pfx big ch} (hat : At t q (.node p.node pfx big ch)) (hu : HoldUp t p q) :
    Ordered t (.two p.node p.parent) := by
  intro q1 n pfx1 big1 ch1 c m pfx2 big2 ch2 h1 hc hn hm
  obtain ⟨q2, hlen, h2⟩ := child_path h1 hc
  simp only [Unlock.list, lockList2] at hn hm
  simp only [Unlock.plan]
  rcases hu with ⟨h0, _⟩ | ⟨h0, q0, pfx0, big0, ch0, c0, g1, g2, _⟩
  · rw [if_pos h0] at hn hm
    simp only [List.mem_cons, List.not_mem_nil, or_false] at hn hm
    subst hn hm
    have := hI.path hact h1 h2
    omega
  · rw [if_neg h0] at hn hm ⊢
    simp only [List.mem_cons, List.not_mem_nil, or_false] at hn hm
    have e : q0.length < q.length := by rw [g2]; simp
    rcases hn with rfl | rfl <;> rcases hm with rfl | rfl
    · have := hI.path hact h1 h2; omega
    · have := hI.path hact h1 hat; have := hI.path hact h2 g1; omega
    · exact .head (by simp)
    · have := hI.path hact h1 h2; omega

theorem ordered_three (hact : (s.proc a).active = true) {p : Pos} {child q pfx big ch c' pfx' big' ch'} (hat : At t q (.node p.node pfx big ch))
    (hch : ch c' = .node child pfx' big' ch') (hu : HoldUp t p q) (hd : p.parent ≠ 0 → ¬ sameLock child p.parent) :
    Ordered t (.three child p.node p.parent) := by
  intro q1 n pfx1 big1 ch1 c m pfx2 big2 ch2 h1 hc hn hm
  obtain ⟨q2, hlen, h2⟩ := child_path h1 hc
  obtain ⟨q3, hlen3, h3⟩ := child_path hat hch
  simp only [Unlock.list, lockList3] at hn hm
  simp only [Unlock.plan]
  have hn0 : p.node ≠ 0 := by have := (hat.inBlocks hI.mem.core.inb).1.1; omega
  rcases hu with ⟨h0, _⟩ | ⟨h0, q0, pfx0, big0, ch0, c0, g1, g2, _⟩
  · rw [if_pos h0] at hn hm ⊢
    rw [if_neg hn0]
    simp only [List.mem_cons, List.not_mem_nil, or_false] at hn hm
    rcases hn with rfl | rfl <;> rcases hm with rfl | rfl
    · have := hI.path hact h1 h2; omega
    · have := hI.path hact h1 h3; have := hI.path hact h2 hat; omega
    · exact .head (by simp)
    · have := hI.path hact h1 h2; omega
  · rw [if_neg h0] at hn hm ⊢
    simp only [List.mem_cons, List.not_mem_nil, or_false] at hn hm
    have e : q0.length < q.length := by rw [g2]; simp
    rcases hn with rfl | rfl | rfl <;> rcases hm with rfl | rfl | rfl
    · have := hI.path hact h1 h2; omega
    · have := hI.path hact h1 h3; have := hI.path hact h2 hat; omega
    · have := hI.path hact h1 h3; have := hI.path hact h2 g1; omega
    · exact .second (hd h0)
    · have := hI.path hact h1 h2; omega
    · have := hI.path hact h1 hat; have := hI.path hact h2 g1; omega
    · exact .head (by simp)
    · exact .head (by simp)
    · have := hI.path hact h1 h2; omega

theorem ordered_updB {op : UpdOp} {value : Word} {cm : Commit} (hp : s.proc a = .updB op value cm) : Ordered t op.unl := by
  have hact : (s.proc a).active = true := by rw [hp]; rfl
  have hP := hI.proc a
  rw [hp] at hP
  obtain ⟨_, q, pfx, big, ch, _, ⟨h1, _⟩ | ⟨h1, h2, h3⟩⟩ := hP
  · have e : op.unl = .root := by
      unfold UKind.isRoot at h1
      unfold UpdOp.unl
      split at h1 <;> simp_all
    rw [e]
    intro _ _ _ _ _ _ _ _ _ _ _ _ h
    simp [Unlock.list] at h
  · have e : op.unl = .two op.node op.parent := by
      unfold UKind.isRoot at h1
      unfold UpdOp.unl
      split at h1 <;> simp_all
    rw [e]
    exact ordered_two hI hact (p := op.pos) h2.at' h3

theorem ordered_delB {cur : DelCur} {cm : Commit} (hp : s.proc a = .delB cur cm) (h3 : Apart3 (s.proc a)) : Ordered t cur.op.unl := by
  have hact : (s.proc a).active = true := by rw [hp]; rfl
  have hP := hI.proc a
  rw [hp] at hP h3
  have hnil : cur.op.unl.list = [] → Ordered t cur.op.unl := by
    intro e _ _ _ _ _ _ _ _ _ _ _ _ h
    rw [e] at h; simp at h
  obtain ⟨_, q, pfx, ch, big2, kids, _, ⟨h1, _⟩ | ⟨h1, h2, hu⟩ | ⟨h1, k, k2, lk, lv, pfx2, h2, hu, _⟩ | ⟨h1, _⟩⟩ := hP
  · exact hnil (by simp [DelOp.unl, h1, Unlock.list])
  · have e : cur.op.unl = .two cur.op.node cur.op.parent := by
      rcases h1 with h1 | h1 <;> simp [DelOp.unl, h1]
    rw [e]
    exact ordered_two hI hact (p := cur.op.pos) h2.at' hu
  · have e : cur.op.unl = .three cur.op.child cur.op.node cur.op.parent := by simp [DelOp.unl, h1]
    rw [e]
    exact ordered_three hI hact (p := cur.op.pos) (c' := k2) h2.at' (by rw [ch2_snd]) hu (h3 h1)
  · exact hnil (by simp [DelOp.unl, h1, Unlock.list])

/-! ## One step -/

theorem PInv.lockKind {p : Proc} (hp : s.proc a = p) (hu : (∃ ph, p = .upd ph) ∨ ∃ ph, p = .del ph) : LockKind p := by
  have hP := hI.proc a
  rw [hp] at hP
  rcases hu with ⟨ph, rfl⟩ | ⟨ph, rfl⟩
  · cases ph with
    | lock f op =>
      have h1 := hP.2.1
      unfold UKind.isRoot at h1
      show op.unl = _
      unfold UpdOp.unl
      split at h1 <;> simp_all
    | _ => trivial
  · cases ph with
    | lock cur =>
      show cur.op.unl = _
      rcases hP.2.2.1 with h1 | h1 <;> simp [DelOp.unl, h1]
    | _ => trivial

omit hI in
theorem Takes.locks {st st' : St} {p : Proc} (h : Takes st st' p) : (∃ L, st'.locks = bumpLocks st.locks L) ∧ st'.mem = st.mem := by
  rcases h with ⟨rfl, _⟩ | ⟨rfl, _⟩ | ⟨_, rfl, _⟩
  · exact ⟨⟨[], by rw [bumpLocks_nil]⟩, rfl⟩
  · exact ⟨⟨_, rfl⟩, rfl⟩
  · exact ⟨⟨[], by rw [bumpLocks_nil]⟩, rfl⟩

include hA in
/-- A step that ends an operation or does not concern updates and deletes. -/
theorem AInv.other {st' : St} {p' : Proc} {seen' : Nat → T → Prop} {L : List Nat} (hL' : LInv (s.set a st' p')) (hs : p'.searching = false)
    (h3 : Apart3 p') (ht : p'.tail? = none) (hlocks : st'.locks = bumpLocks s.st.locks L) (hmem : st'.mem = s.st.mem)
    (hseen : ∀ b, b ≠ a → seen' b = seen b) : AInv (s.set a st' p') t seen' := by
  refine hA.quiet (a := a) (.of_set hI.locks hL' hlocks ht (fun _ _ x _ _ _ => by rw [hmem])) (fun b hb => Sys.set_other _ _ _ _ hb) hseen ?_ ?_
  · rw [Sys.set_self]; exact .idle hs
  · rw [Sys.set_self]; exact h3

/-- Memory in use is not available for new nodes. -/
theorem Inv.unused {b : Nat} {t1 : T} (hact : (s.proc b).active = true) (hs : seen b t1) {x : Nat} (hx : 0 < t1.cover x) :
    freeP (availNow s.st) s.st x = 0 := by
  have h1 := (hI.mem.ok b t1 hact hs).prot x hx
  have h2 := minReservation_le (hI.lt_of_active hact)
  refine Nat.eq_zero_of_le_zero (Nat.le_trans (freeP_mono ?_ s.st x) (Nat.le_of_eq h1))
  intro e he
  simp only [availNow, decide_eq_true_eq] at he ⊢
  omega

include hA in
/-- The new nodes of an operation are built. -/
theorem AInv.build {st' : St} {p' : Proc} {N N' : Nat → Nat} (hL' : LInv (s.set a st' p')) (heff : AllocEff a s.st st' N N')
    (hs : p'.searching = false) (h3 : Apart3 p') (ht : p'.tail? = none) : AInv (s.set a st' p') t seen := by
  refine hA.quiet (a := a) (.of_set (L := []) hI.locks hL' (by rw [heff.locks, bumpLocks_nil]) ht
    (fun b t1 x h1 h2 h3 => heff.mem x (hI.unused h1 h2 h3))) (fun b hb => Sys.set_other _ _ _ _ hb) (fun _ _ => rfl) ?_ ?_
  · rw [Sys.set_self]; exact .idle hs
  · rw [Sys.set_self]; exact h3

omit hI in
theorem Sys.Quiet.set {st' : St} {p' : Proc} (h : s.Quiet a) : (s.set a st' p').Quiet a := by
  rcases h with h | h
  · exact .inl fun b hb => by rw [Sys.set_other _ _ _ _ hb]; exact h b hb
  · exact .inr fun b hb => by rw [Sys.set_other _ _ _ _ hb]; exact h b hb

include hA in
theorem commitU_apart {op : UpdOp} {value : Word} {cm : Commit} (hp : s.proc a = .updB op value cm) (hq : s.Quiet a) :
    ∃ b tl st', s.st.commit cm = (b, tl, st') ∧ ∃ t' seen',
      Inv env (s.set a st' (.upd (.tail b tl))) (σ.next (if b then .put op.key (trunc55 value) else .none)) t' seen' ∧
      AInv (s.set a st' (.upd (.tail b tl))) t' seen' := by
  obtain ⟨b, tl, st', e, _, t', seen', hs', hI', _, hu, hsw, _⟩ := commitU_full hI hp
  refine ⟨b, tl, st', e, t', seen', hI', ?_⟩
  refine hA.publish hI (tl := tl) hq (by rw [hp]; rfl) rfl hsw.locks hsw.keep hsw.mem ?_ (fun b x h => (hs'.1 b x).2 (.inl h))
  rw [hu]
  exact hsw.linked hI hI'.mem.core.wf (ordered_updB hI hp)

include hA in
theorem commitD_apart {cur : DelCur} {cm : Commit} (hp : s.proc a = .delB cur cm) (hcalm : Calm s (.commit a)) (hq : s.Quiet a) :
    ∃ b tl st', s.st.commit cm = (b, tl, st') ∧ ∃ t' seen',
      Inv env (s.set a st' (.del (.tail b tl))) (σ.next (if b then .del cur.key else .none)) t' seen' ∧
      AInv (s.set a st' (.del (.tail b tl))) t' seen' := by
  obtain ⟨b, tl, st', e, _, _, t', seen', hs', hI', _, hu, hsw, _⟩ := commitD_full hI hp hcalm
  refine ⟨b, tl, st', e, t', seen', hI', ?_⟩
  refine hA.publish hI (tl := tl) hq (by rw [hp]; rfl) rfl hsw.locks hsw.keep hsw.mem ?_ (fun b x h => (hs'.1 b x).2 (.inl h))
  rw [hu]
  exact hsw.linked hI hI'.mem.core.wf (ordered_delB hI hp (hA.three a))

include hA in
/-- One lock is released. -/
theorem AInv.unlock {tl : Tail} {u : Unlock} {st' : St} {p' : Proc} (hL' : LInv (s.set a st' p')) (htl : (s.proc a).tail? = some tl)
    (hp' : p'.tail? = some { tl with unl := u }) (h3 : ∀ c n p, tl.unl = .three c n p → n ≠ 0)
    (h : s.st.unlockOne tl.unl = some (.ok (u, st'))) : AInv (s.set a st' p') t seen := by
  have hodd := hI.locks.odd a
  rw [Proc.unl_of_tail htl] at hodd
  have hlk : (∃ L, st'.locks = bumpLocks s.st.locks L) ∧ st'.mem = s.st.mem := by
    rcases unlockOne_spec hodd h3 h with ⟨_, e⟩ | ⟨n, l, _, _, _, _, e⟩ <;>
      (injection e with e; injection e with e1 e2; rw [e2])
    · exact ⟨⟨[], by rw [bumpLocks_nil]⟩, rfl⟩
    · exact ⟨⟨_, rfl⟩, rfl⟩
  obtain ⟨⟨L, hL⟩, hm⟩ := hlk
  have hns : p'.searching = false ∧ Apart3 p' := by
    unfold Proc.tail? at hp'
    split at hp' <;> first | exact ⟨rfl, trivial⟩ | cases hp'
  refine hA.quiet (a := a) (.of_locks hI.locks hL' hL ?_ (fun _ _ x _ _ _ => by rw [Sys.set_st, hm])) (fun b hb => Sys.set_other _ _ _ _ hb)
    (fun _ _ => rfl) ?_ ?_
  · intro b tl' hb
    by_cases hba : b = a
    · subst hba
      rw [Sys.set_self, hp'] at hb
      cases hb
      refine ⟨tl, htl, ?_⟩
      rcases unlockOne_ok h with ⟨_, e, _⟩ | ⟨n, l, e1, e2, _⟩
      · subst e
        exact ⟨fun _ _ _ => .nil, fun m hm => by simp [Unlock.list] at hm⟩
      · subst e2
        refine ⟨fun x y ho => ?_, fun m hm => ?_⟩
        · rw [e1] at ho; exact ho.tail
        · rw [← plan_list h3, e1]
          simp only [Unlock.list] at hm
          simp [(List.mem_filter.1 hm).1]
    · rw [Sys.set_other _ _ _ _ hba] at hb
      rw [hb]; exact OrdL.same_tail
  · rw [Sys.set_self]; exact .idle hns.1
  · rw [Sys.set_self]; exact hns.2

omit hI in
theorem notail_upd {ph ph' : UPh} (h : ph'.key? = ph.key?) (h2 : ∀ f op, ph ≠ .tail f op) : (Proc.upd ph').tail? = none := by
  cases ph' with
  | tail r tl => cases ph <;> first | (cases h; done) | exact absurd rfl (h2 _ _)
  | _ => rfl

omit hI in
theorem notail_del {ph ph' : DPh} (h : ph'.key? = ph.key?) (h2 : ∀ f op, ph ≠ .tail f op) : (Proc.del ph').tail? = none := by
  cases ph' with
  | tail r tl => cases ph <;> first | (cases h; done) | exact absurd rfl (h2 _ _)
  | _ => rfl

include hA in
theorem exec_apart {act : Act} {ev : Ev} (hall : env.Allowed s act) (hap : Apart s act) (h : exec env.fetch s act = some (.ok (s', ev))) :
    ∃ t' seen', Inv env s' (σ.next ev) t' seen' ∧ AInv s' t' seen' := by
  have hcalm := hap.calm hI hA
  cases act with
  | begin a c =>
    simp only [exec] at h
    split at h
    · rename_i hp
      split at h
      · rename_i ha
        cases h
        have hI' := begin_inv hI hp ha hall hcalm
        exact ⟨_, _, hI', hA.other hI (L := []) hI'.locks rfl trivial rfl (by rw [bumpLocks_nil]) rfl (fun _ _ => rfl)⟩
      · cases h
    · cases h
  | arm a =>
    simp only [exec] at h
    split at h
    · rename_i e c hp
      cases h
      have hI' := arm_inv hI hp
      refine ⟨_, _, hI', hA.other hI (L := []) hI'.locks ?_ ?_ ?_ (by rw [bumpLocks_nil]) rfl (fun b hb => upd_of_ne _ _ hb)⟩ <;>
        cases c <;> first | rfl | trivial
    · cases h
  | run a =>
    simp only [exec] at h
    split at h
    · cases h
    · cases h
    · rename_i ph h1 h2 hp
      have h1' : ∀ f op, ph ≠ .held f op := fun f op e => h1 f op (by rw [e])
      have h2' : ∀ f op, ph ≠ .tail f op := fun f op e => h2 f op (by rw [e])
      obtain ⟨ph', st', e, hI'⟩ := stepU_inv hI hp hcalm h1' h2'
      rw [e] at h
      cases h
      have hpos := hA.pos a
      rw [hp] at hpos
      obtain ⟨hk', htk⟩ := stepU_locks (PInv.lockKind hI hp (.inl ⟨_, rfl⟩)) h1' h2' e
      obtain ⟨⟨L, hL⟩, hm⟩ := htk.locks
      refine ⟨_, _, hI', hA.move (by rw [hp]; rfl) (.of_set hI.locks hI'.locks hL ?_ (fun _ _ x _ _ _ => by rw [hm])) (stepU_pos hI hp hpos h1' h2' e) trivial⟩
      exact notail_upd (by rw [stepU_key e]) h2'
    · cases h
    · cases h
    · cases h
    · rename_i ph h1 h2 h3 hp
      have h1' : ∀ cur, ph ≠ .held cur := fun f e => h2 f (by rw [e])
      have h2' : ∀ f op, ph ≠ .tail f op := fun f op e => h3 f op (by rw [e])
      obtain ⟨ph', st', e, hI'⟩ := stepD_inv hI hp hcalm h1' h2' (fun f e => h1 f (by rw [e]))
      rw [e] at h
      cases h
      have hpos := hA.pos a
      rw [hp] at hpos
      obtain ⟨hk', htk⟩ := stepD_locks (PInv.lockKind hI hp (.inr ⟨_, rfl⟩)) h1' h2' e
      obtain ⟨⟨L, hL⟩, hm⟩ := htk.locks
      obtain ⟨g1, g2⟩ := stepD_pos hI hp hpos h1' h2' hap e
      refine ⟨_, _, hI', hA.move (by rw [hp]; rfl) (.of_set hI.locks hI'.locks hL ?_ (fun _ _ x _ _ _ => by rw [hm])) g1 g2⟩
      exact notail_del (by rw [stepD_key e]) h2'
    · cases h
    · rename_i ph h1 hp
      obtain ⟨ph', e, hI'⟩ := stepR_inv hI hp (fun f op e => h1 f op (by rw [e]))
      rw [e] at h
      cases h
      exact ⟨_, _, hI', hA.other hI (L := []) hI'.locks rfl trivial rfl (by rw [bumpLocks_nil]) rfl (fun _ _ => rfl)⟩
    · cases h
  | slip a =>
    obtain ⟨rfl, _, ⟨ph, ph', hp, hs, rfl⟩ | ⟨ph, ph', hp, hs, rfl⟩⟩ := exec_slip_ok h
    · obtain ⟨ph2, e, hI'⟩ := slipU_inv hI hp hs
      cases e
      have hpos := hA.pos a
      rw [hp] at hpos
      refine ⟨_, _, hI', hA.move (by rw [hp]; rfl) (.of_set (L := []) hI.locks hI'.locks (by rw [bumpLocks_nil]) ?_ (fun _ _ _ _ _ _ => rfl)) (slipU_pos hI hp hpos hs) trivial⟩
      rcases slipU_key hs with ⟨_, _, _, rfl⟩ | ⟨_, _, _, rfl⟩ | ⟨_, _, _, _, ⟨_, rfl⟩ | ⟨_, rfl⟩⟩ | ⟨_, _, _, rfl⟩ <;> rfl
    · obtain ⟨ph2, e, hI'⟩ := slipD_inv hI hp hs
      cases e
      have hpos := hA.pos a
      rw [hp] at hpos
      obtain ⟨g1, g2⟩ := slipD_pos hI hp hpos hs
      refine ⟨_, _, hI', hA.move (by rw [hp]; rfl) (.of_set (L := []) hI.locks hI'.locks (by rw [bumpLocks_nil]) ?_ (fun _ _ _ _ _ _ => rfl)) g1 g2⟩
      rcases slipD_key hs with ⟨_, _, _, rfl⟩ | ⟨_, _, _, rfl⟩ | ⟨_, _, _, _, ⟨_, rfl⟩ | ⟨_, rfl⟩⟩ | ⟨_, _, rfl⟩ | ⟨_, _, _, _, _, _, rfl⟩ | ⟨_, _, _, _, rfl⟩ <;> rfl
  | publish a value =>
    simp only [exec] at h
    split at h
    · rename_i f op hp
      rw [publishU_eq] at h
      rcases buildU_inv hI hp hall with e | ⟨cm, st1, e, heff, hI1⟩
      · rw [e] at h; cases h
      · rw [e] at h
        have hA1 := hA.build hI hI1.locks heff rfl trivial rfl
        obtain ⟨b, tl, st', e', t', seen', hI', hA'⟩ := commitU_apart hI1 hA1 (Sys.set_self _ _ _ _) hap.1.set
        rw [Sys.set_st] at e'
        rw [Sys.set_set] at hI' hA'
        simp only [bind, Except.bind, pure, Except.pure, e'] at h
        cases h
        exact ⟨t', seen', hI', hA'⟩
    · rename_i cur hp
      have hnf : cur.op.kind ≠ .notFound := by
        intro e
        obtain ⟨hf, _⟩ := held_del hI hp
        unfold DFact at hf
        rw [e] at hf
        exact hf
      rw [publishD_eq _ _ _ hnf] at h
      rcases buildD_inv hI hp (value := value) hall with e | ⟨cm, st1, e, heff, hI1⟩
      · rw [e] at h; cases h
      · rw [e] at h
        have h256 : cur.op.kind = .deleteLeaf256 → st1 = s.st ∧ ∀ x, (Proc.delB cur cm).copied x = 0 := by
          intro hk
          unfold buildD at e
          simp only [hk, pure, Except.pure, Except.ok.injEq, Prod.mk.injEq] at e
          obtain ⟨e1, e2⟩ := e
          refine ⟨e2.symm, fun x => ?_⟩
          rw [← e1]; rfl
        have hc : Calm (s.set a st1 (.delB cur cm)) (.commit a) := by
          simp only [Calm, hp] at hcalm
          simp only [Calm, Sys.set_self, Sys.set_st]
          intro hk hl
          obtain ⟨e1, e2⟩ := h256 hk
          rw [e1] at hl ⊢
          obtain ⟨p, g1, g2, g3⟩ := hcalm hk hl
          refine ⟨p, g1, g2, ?_⟩
          rintro ⟨b, hb⟩
          by_cases hba : b = a
          · subst hba
            rw [Sys.set_self, e2] at hb
            omega
          · rw [Sys.set_other _ _ _ _ hba] at hb
            exact g3 ⟨b, hb⟩
        have h3 := hA.three a
        rw [hp] at h3
        have hA1 := hA.build hI hI1.locks heff rfl h3 rfl
        obtain ⟨b, tl, st', e', t', seen', hI', hA'⟩ := commitD_apart hI1 hA1 (Sys.set_self _ _ _ _) hc hap.1.set
        rw [Sys.set_st] at e'
        rw [Sys.set_set] at hI' hA'
        simp only [bind, Except.bind, pure, Except.pure, e'] at h
        cases h
        exact ⟨t', seen', hI', hA'⟩
    · cases h
  | build a value =>
    simp only [exec] at h
    split at h
    · rename_i f op hp
      rcases buildU_inv hI hp hall with e | ⟨cm, st', e, heff, hI'⟩
      · rw [e] at h; cases h
      · rw [e] at h
        cases h
        exact ⟨_, _, hI', hA.build hI hI'.locks heff rfl trivial rfl⟩
    · rename_i cur hp
      split at h
      · cases h
      rcases buildD_inv hI hp (value := value) hall with e | ⟨cm, st', e, heff, hI'⟩
      · rw [e] at h; cases h
      · rw [e] at h
        cases h
        have h3 := hA.three a
        rw [hp] at h3
        exact ⟨_, _, hI', hA.build hI hI'.locks heff rfl h3 rfl⟩
    · cases h
  | commit a =>
    simp only [exec] at h
    split at h
    · rename_i op value cm hp
      obtain ⟨b, tl, st', e, t', seen', hI', hA'⟩ := commitU_apart hI hA hp hap.1
      rw [e] at h
      cases h
      exact ⟨t', seen', hI', hA'⟩
    · rename_i cur cm hp
      obtain ⟨b, tl, st', e, t', seen', hI', hA'⟩ := commitD_apart hI hA hp hcalm hap.1
      rw [e] at h
      cases h
      exact ⟨t', seen', hI', hA'⟩
    · cases h
  | unlock a =>
    obtain ⟨rfl, ⟨b, tl, u, st', hp, hs, rfl⟩ | ⟨b, tl, u, st', hp, hs, rfl⟩⟩ := exec_unlock_ok h
    · have hP := hI.proc a
      rw [hp] at hP
      obtain ⟨u', st2, e, hI'⟩ := unlock_inv hI (a := a) (tl := tl) (by rw [hp]; rfl) (by rw [hp]; rfl) hP.2 hs
        (P := fun u => .upd (.tail b { tl with unl := u })) (fun _ => rfl) (fun _ => rfl) (fun _ => rfl) (fun u h => ⟨hP.1, h⟩)
      cases e
      exact ⟨_, _, hI', hA.unlock hI hI'.locks (tl := tl) (by rw [hp]; rfl) rfl hP.2 hs⟩
    · have hP := hI.proc a
      rw [hp] at hP
      obtain ⟨u', st2, e, hI'⟩ := unlock_inv hI (a := a) (tl := tl) (by rw [hp]; rfl) (by rw [hp]; rfl) hP.2 hs
        (P := fun u => .del (.tail b { tl with unl := u })) (fun _ => rfl) (fun _ => rfl) (fun _ => rfl) (fun u h => ⟨hP.1, h⟩)
      cases e
      exact ⟨_, _, hI', hA.unlock hI hI'.locks (tl := tl) (by rw [hp]; rfl) rfl hP.2 hs⟩
  | tail a =>
    have key : ∀ {tl : Tail}, (s.proc a).tail? = some tl → (s.proc a).active = true →
        ((∀ n slots, tl.free = some (n, slots) → NewPos s.st n slots) ∧ ∀ c n p, tl.unl = .three c n p → n ≠ 0) → ∀ {st'},
        s.st.runTail a tl = .ok st' → ∃ t' seen', Inv env (s.set a st' .idle) σ t' seen' ∧ AInv (s.set a st' .idle) t' seen' := by
      intro tl ht hact hP st' e
      rcases tail_inv hI ht hact hP with ⟨n, _, e'⟩ | ⟨st2, e', hI'⟩
      · rw [e] at e'; cases e'
      · rw [e] at e'; cases e'
        have hodd := hI.locks.odd a
        rw [Proc.unl_of_tail ht] at hodd
        rcases runTail_spec (P := env.P) (hI.lt_of_active hact) hodd hP.2 hI.mem.core.ok hP.1 with ⟨n, _, e'⟩ | ⟨_, st2, e', he⟩
        · rw [e] at e'; cases e'
        · rw [e] at e'; cases e'
          exact ⟨_, _, hI', hA.other hI hI'.locks rfl trivial rfl he.locks he.mem (fun _ _ => rfl)⟩
    simp only [exec] at h
    split at h
    · rename_i b tl hp
      have hP := hI.proc a
      rw [hp] at hP
      cases e : s.st.runTail a tl with
      | error _ => rw [e] at h; cases h
      | ok st' =>
        rw [e] at h; cases h
        exact key (by rw [hp]; rfl) (by rw [hp]; rfl) hP e
    · rename_i b tl hp
      have hP := hI.proc a
      rw [hp] at hP
      cases e : s.st.runTail a tl with
      | error _ => rw [e] at h; cases h
      | ok st' =>
        rw [e] at h; cases h
        exact key (by rw [hp]; rfl) (by rw [hp]; rfl) hP e
    · cases h
  | quit a =>
    obtain ⟨rfl, ⟨f, op, hp, rfl⟩ | ⟨cur, hp, rfl⟩⟩ := exec_quit_ok h
    · exact ⟨_, _, quitU_inv hI hp, hA.publish hI (tl := { unl := op.abortUnl }) hap.1 (by rw [hp]; rfl) rfl rfl (.refl _) (fun _ _ _ => rfl) (.refl _ _) (fun _ _ h => h)⟩
    · exact ⟨_, _, quitD_inv hI hp hcalm, hA.publish hI (tl := { unl := cur.op.abortUnl }) hap.1 (by rw [hp]; rfl) rfl rfl (.refl _) (fun _ _ _ => rfl) (.refl _ _) (fun _ _ h => h)⟩
  | abort a =>
    simp only [exec] at h
    split at h
    · rename_i f op hp
      obtain ⟨st', e, hr, hI'⟩ := abortU_inv hI hp
      rw [e] at h
      cases h
      exact ⟨_, _, hI', hA.other hI hI'.locks rfl trivial rfl (by rw [hr]) (by rw [hr]) (fun _ _ => rfl)⟩
    · rename_i cur hp
      rcases abortD_inv hI hp hcalm with ⟨e, _, _⟩ | ⟨st', e, hr, hI'⟩
      · rw [e] at h; cases h
      · rw [e] at h
        cases h
        exact ⟨_, _, hI', hA.other hI hI'.locks rfl trivial rfl (by rw [hr]) (by rw [hr]) (fun _ _ => rfl)⟩
    · cases h
  | finish a =>
    simp only [exec] at h
    have key : (s.proc a).active = true → (s.proc a).plain = true → (s.proc a).unl = .none →
        Inv env (s.set a (s.st.endOp a) .idle) σ t seen ∧ AInv (s.set a (s.st.endOp a) .idle) t seen := by
      intro h1 h2 h3
      have hI' := (hI.quit h1 h2 (st1 := s.st) (by rw [h3]; simp [Unlock.list, Unlock.rootN, bumpLocks_nil])).2
      exact ⟨hI', hA.other hI (L := []) hI'.locks rfl trivial rfl (by rw [bumpLocks_nil]; rfl) rfl (fun _ _ => rfl)⟩
    split at h
    · rename_i hp
      cases h
      exact ⟨_, _, key (by rw [hp]; rfl) (by rw [hp]; rfl) (by rw [hp]; rfl)⟩
    · rename_i hp
      cases h
      exact ⟨_, _, key (by rw [hp]; rfl) (by rw [hp]; rfl) (by rw [hp]; rfl)⟩
    · rename_i hp
      cases h
      exact ⟨_, _, key (by rw [hp]; rfl) (by rw [hp]; rfl) (by rw [hp]; rfl)⟩
    · cases h
  | flush a =>
    simp only [exec] at h
    split at h
    · rename_i hp
      split at h
      · rename_i ha
        cases h
        have hI' := flush_inv hI hp ha
        refine ⟨_, _, hI', hA.other hI (L := []) hI'.locks rfl trivial rfl ?_ (SameMem.flushStats s.st a).mem (fun _ _ => rfl)⟩
        rw [bumpLocks_nil]; rfl
      · cases h
    · cases h
  | block =>
    simp only [exec] at h
    rcases block_inv hI with e | ⟨st', e, hI'⟩
    · rw [e] at h; cases h
    · rw [e] at h
      cases h
      refine ⟨_, _, hI', hA.quiet (a := s.st.nalloc) (.of_locks (L := []) hI.locks hI'.locks ?_ (fun b tl hb => ?_) ?_) (fun _ _ => rfl) (fun _ _ => rfl) ?_ ?_⟩
      · rw [bumpLocks_nil]
        unfold St.blockStep at e
        repeat' split at e
        all_goals (cases e; try rfl)
      · rw [hb]; exact OrdL.same_tail
      · intro b t1 x h1 h2 h3
        have h4 := hI.unused h1 h2 h3
        unfold St.blockStep at e
        repeat' split at e
        · cases e; rfl
        · cases e
          simp only
          rw [if_neg]
          intro e
          unfold freeP at h4
          rw [if_pos (by rw [← e]; exact Nat.div_mul_le_self _ _)] at h4
          omega
        · cases e
      · rw [hI.mem.off _ (Nat.le_refl _)]; trivial
      · rw [hI.mem.off _ (Nat.le_refl _)]; trivial

end

/-! ## Executions -/

theorem AInv.new {s : Sys} {t : T} {seen : Nat → T → Prop} (h : ∀ a, s.proc a = .idle) : AInv s t seen :=
  ⟨fun a => by rw [h]; trivial, fun a => by rw [h]; trivial⟩

theorem Run.ainv {env : Env} {s : Sys} {σ : Spec} (h : Run env Apart s σ) : (∃ t seen, Inv env s σ t seen ∧ AInv s t seen) ∧ Run env Calm s σ := by
  induction h with
  | init n => exact ⟨⟨_, _, new_inv env n, .new fun _ => rfl⟩, .init n⟩
  | reload _ hs ih =>
    obtain ⟨⟨t, seen, hI, hA⟩, hr⟩ := ih
    exact ⟨⟨t, _, restore_inv hI hs, .new fun _ => rfl⟩, .reload hr hs⟩
  | step _ h1 h2 h3 ih =>
    obtain ⟨⟨t, seen, hI, hA⟩, hr⟩ := ih
    exact ⟨exec_apart hI hA h1 h2 h3, .step hr h1 (h2.calm hI hA) h3⟩

end Radix
