import Verif.Sys.LockInv
/-!
# How many blocks one operation needs
-/
set_option autoImplicit false
namespace Radix

theorem bind_err {α β : Type} {x : Res α} {f : α → Res β} {e : Panic} (h : (x >>= f) = .error e) :
    x = .error e ∨ ∃ a, x = .ok a ∧ f a = .error e := by
  cases x with
  | error e' => left; cases h; rfl
  | ok a => exact .inr ⟨a, rfl, h⟩

/-! ## Failures that are not for lack of blocks -/

theorem nodeData_nb {st : St} {n : Nat} : st.nodeData n ≠ .error .noBlocks := by
  unfold St.nodeData; split <;> simp

theorem drop_nb {d : Slice} {n : Nat} : d.drop n ≠ .error .noBlocks := by
  unfold Slice.drop; split <;> simp

theorem words_nb {d : Slice} {m : Mem} {n : Nat} : d.words m n ≠ .error .noBlocks := by
  unfold Slice.words; split <;> simp

theorem set_nb {d : Slice} {m : Mem} {n : Nat} {w : Word} : d.set m n w ≠ .error .noBlocks := by
  unfold Slice.set; split <;> simp

theorem keyAt_nb {k : Key} {n : Nat} : keyAt k n ≠ .error .noBlocks := by
  unfold keyAt; split <;> simp

theorem addSortedChildren_nb {d : Slice} {m : Mem} {a b : Word} : addSortedChildren m d a b ≠ .error .noBlocks := by
  unfold addSortedChildren
  intro h
  split at h <;> rcases bind_err h with h | ⟨_, _, h⟩ <;> exact set_nb h

theorem rootCommon_nb : ∀ {a b : Key}, rootCommon a b ≠ .error .noBlocks
  | [], _ => by simp [rootCommon]
  | _ :: _, [] => by simp [rootCommon]
  | a :: as, b :: bs => by
    intro h
    simp only [rootCommon] at h
    split at h
    · split at h
      · cases h
      · rcases bind_err h with h | ⟨_, _, h⟩
        · exact rootCommon_nb h
        · cases h
    · cases h

theorem spread_nb {dst : Slice} : ∀ {l : List Word} {m : Mem}, spread m dst l ≠ .error .noBlocks
  | [], _ => by simp [spread]
  | a :: as, m => by
    intro h
    simp only [spread] at h
    rcases bind_err h with h | ⟨_, _, h⟩
    · exact set_nb h
    · exact spread_nb h

theorem get_nb {d : Slice} {m : Mem} {n : Nat} : d.get m n ≠ .error .noBlocks := by
  unfold Slice.get; split <;> simp

theorem storePrefix_nb {m : Mem} {d : Slice} {p : List UInt8} : storePrefix m d p ≠ .error .noBlocks := by
  unfold storePrefix
  intro h
  split at h
  · rcases bind_err h with h | ⟨_, _, h⟩
    · exact set_nb h
    · rcases bind_err h with h | ⟨_, _, h⟩
      · exact drop_nb h
      · rcases bind_err h with h | ⟨_, _, h⟩
        · exact get_nb h
        · cases h
  · rcases bind_err h with h | ⟨_, _, h⟩
    · exact get_nb h
    · cases h

/-! ## Blocks used -/

/-- At most `k` blocks are taken, and there is only lack of blocks if fewer than `k` were left. -/
def Needs (k : Nat) (st : St) {α : Type} (x : Res α) (f : α → St) : Prop :=
  (∀ a, x = .ok a → st.baNext ≤ (f a).baNext ∧ (f a).baNext ≤ st.baNext + k) ∧ (x = .error .noBlocks → maxBlockCount < st.baNext + k)

theorem newNode_takes (st : St) (a slots : Nat) : Needs 1 st (st.newNode a slots) (·.2) := by
  unfold St.newNode
  simp only
  split
  · exact ⟨fun _ h => by cases h; exact ⟨Nat.le_refl _, Nat.le_succ _⟩, fun h => by cases h⟩
  · unfold St.allocFresh
    simp only
    split
    · unfold St.blockStep
      split
      · exact ⟨fun _ h => by cases h; exact ⟨Nat.le_succ _, Nat.le_refl _⟩, fun h => by cases h⟩
      · split
        · exact ⟨fun _ h => by cases h; exact ⟨Nat.le_succ _, Nat.le_refl _⟩, fun h => by cases h⟩
        · exact ⟨fun _ h => (by cases h), fun _ => by omega⟩
    · exact ⟨fun _ h => by cases h; exact ⟨Nat.le_refl _, Nat.le_succ _⟩, fun h => by cases h⟩

theorem allocNode_takes (st : St) (a count plen : Nat) : Needs 1 st (st.allocNode a count plen) (·.2.2) := by
  unfold St.allocNode
  have h1 := newNode_takes st a (count + prefixSlots plen)
  refine ⟨fun r h => ?_, fun h => ?_⟩
  · obtain ⟨⟨n, st1⟩, e, h⟩ := bind_ok h
    obtain ⟨d, _, h⟩ := bind_ok h
    cases h
    exact h1.1 _ e
  · rcases bind_err h with h | ⟨⟨n, st1⟩, e, h⟩
    · exact h1.2 h
    · rcases bind_err h with h | ⟨d, _, h⟩
      · exact absurd h nodeData_nb
      · cases h

theorem allocNodeP_takes (st : St) (a count : Nat) (pfx : List UInt8) : Needs 1 st (st.allocNodeP a count pfx) (·.2.2) := by
  unfold St.allocNodeP
  have h1 := newNode_takes st a (count + prefixSlots pfx.length)
  refine ⟨fun r h => ?_, fun h => ?_⟩
  · obtain ⟨⟨n, st1⟩, e, h⟩ := bind_ok h
    obtain ⟨d, _, h⟩ := bind_ok h
    split at h
    · obtain ⟨m, _, h⟩ := bind_ok h
      obtain ⟨d2, _, h⟩ := bind_ok h
      cases h
      exact h1.1 _ e
    · cases h
      exact h1.1 _ e
  · rcases bind_err h with h | ⟨⟨n, st1⟩, e, h⟩
    · exact h1.2 h
    · rcases bind_err h with h | ⟨d, _, h⟩
      · exact absurd h nodeData_nb
      · split at h
        · rcases bind_err h with h | ⟨m, _, h⟩
          · exact absurd h storePrefix_nb
          · rcases bind_err h with h | ⟨d2, _, h⟩
            · exact absurd h drop_nb
            · cases h
        · cases h

theorem cas_baNext (st : St) (p : Ptr) (o w : Word) : (st.cas p o w).2.baNext = st.baNext := by
  unfold St.cas St.store
  split
  · cases p <;> rfl
  · rfl

theorem store_baNext (st : St) (p : Ptr) (w : Word) : (st.store p w).baNext = st.baNext := by
  unfold St.store
  cases p <;> rfl

theorem Needs.ret {k : Nat} {st : St} {α : Type} {f : α → St} {a : α} (h : (f a).baNext = st.baNext) : Needs k st (.ok a) f :=
  ⟨fun _ e => by cases e; omega, fun e => by cases e⟩

theorem Needs.bindN {k : Nat} {st : St} {α β : Type} {x : Res α} {g : α → Res β} {f : β → St} (hx : x ≠ .error .noBlocks)
    (hg : ∀ a, Needs k st (g a) f) : Needs k st (x >>= g) f := by
  refine ⟨fun b h => ?_, fun h => ?_⟩
  · obtain ⟨a, _, h⟩ := bind_ok h
    exact (hg a).1 b h
  · rcases bind_err h with h | ⟨a, _, h⟩
    · exact absurd h hx
    · exact (hg a).2 h

theorem Needs.bind {k : Nat} {st : St} {α β : Type} {x : Res α} {f1 : α → St} {g : α → Res β} {f : β → St} (hx : Needs 1 st x f1)
    (hg : ∀ a, Needs k (f1 a) (g a) f) : Needs (k + 1) st (x >>= g) f := by
  refine ⟨fun b h => ?_, fun h => ?_⟩
  · obtain ⟨a, h1, h⟩ := bind_ok h
    have i1 := hx.1 a h1
    have i2 := (hg a).1 b h
    omega
  · rcases bind_err h with h | ⟨a, h1, h⟩
    · have := hx.2 h
      omega
    · have i1 := hx.1 a h1
      have i2 := (hg a).2 h
      omega

/-- The publishing step of an update takes at most two blocks. -/
theorem publishU_needs (st : St) (a : Nat) (op : UpdOp) (fetched : Key) (isMatch : Bool) (value : Word) :
    Needs 2 st (publishU st a op fetched isMatch value) (·.2.2) := by
  unfold publishU
  split
  · exact .ret (cas_baNext ..)
  · exact .bind (allocNode_takes ..) fun r => .bindN addSortedChildren_nb fun m => .ret (cas_baNext ..)
  · split
    · exact .ret (cas_baNext ..)
    · exact .bindN rootCommon_nb fun n => .bind (allocNodeP_takes ..) fun r => .bindN keyAt_nb fun ka => .bindN keyAt_nb fun kb =>
        .bindN addSortedChildren_nb fun m => .ret (cas_baNext ..)
  · exact .bindN keyAt_nb fun ka => .bindN keyAt_nb fun kb => .bind (allocNodeP_takes ..) fun r => .bindN drop_nb fun src =>
      .bindN words_nb fun ws => .bind (k := 0) (st := { r.2.2 with mem := r.2.1.copy r.2.2.mem ws }) (allocNodeP_takes ..) fun r2 =>
      .bindN addSortedChildren_nb fun m => .ret (store_baNext ..)
  · exact .ret (cas_baNext ..)
  · split
    · exact .bind (allocNode_takes ..) fun r => .bindN words_nb fun _ => .bindN set_nb fun _ => .bindN drop_nb fun _ =>
        .bindN words_nb fun _ => .bindN drop_nb fun _ => .ret (store_baNext ..)
    · exact .bind (allocNodeP_takes ..) fun r => .bindN words_nb fun _ => .bindN drop_nb fun _ => .bindN set_nb fun _ =>
        .bindN words_nb fun _ => .bindN spread_nb fun _ => .ret (store_baNext ..)
  all_goals
    split
    · exact .ret (cas_baNext ..)
    · exact .bindN keyAt_nb fun ka => .bindN keyAt_nb fun kb => .bind (allocNodeP_takes ..) fun r =>
        .bindN addSortedChildren_nb fun m => .ret (cas_baNext ..)

/-- The publishing step of a delete takes at most one block. -/
theorem publishD_needs (st : St) (a : Nat) (op : DelOp) : Needs 1 st (publishD st a op) (·.2.2) := by
  unfold publishD
  split
  · exact .ret (store_baNext ..)
  · exact .ret (store_baNext ..)
  · exact .bind (allocNodeP_takes ..) fun r => .bindN drop_nb fun src => .bindN words_nb fun ws => .ret (store_baNext ..)
  · exact .bind (allocNode_takes ..) fun r => .bindN words_nb fun _ => .bindN words_nb fun _ => .bindN drop_nb fun _ => .bindN words_nb fun _ =>
      .bindN drop_nb fun _ => .ret (store_baNext ..)
  · exact .ret (cas_baNext ..)
  · exact .ret rfl

/-! ## Memory to recycle -/

theorem publishU_free {st st' : St} {a : Nat} {op : UpdOp} {fetched : Key} {isMatch : Bool} {value : Word} {b : Bool} {tl : Tail}
    (h : publishU st a op fetched isMatch value = .ok (b, tl, st')) {n sl : Nat} (hf : tl.free = some (n, sl)) :
    sl = op.count + op.prefixSlots ∧ op.kind.isRoot = false := by
  unfold publishU at h
  split at h
  · cases h; cases hf
  · obtain ⟨r, _, h⟩ := bind_ok h
    obtain ⟨m, _, h⟩ := bind_ok h
    cases h; cases hf
  · split at h
    · cases h; cases hf
    · obtain ⟨pl, _, h⟩ := bind_ok h
      obtain ⟨r, _, h⟩ := bind_ok h
      obtain ⟨ka, _, h⟩ := bind_ok h
      obtain ⟨kb, _, h⟩ := bind_ok h
      obtain ⟨m, _, h⟩ := bind_ok h
      cases h; cases hf
  · obtain ⟨ka, _, h⟩ := bind_ok h
    obtain ⟨kb, _, h⟩ := bind_ok h
    obtain ⟨r, _, h⟩ := bind_ok h
    obtain ⟨src, _, h⟩ := bind_ok h
    obtain ⟨ws, _, h⟩ := bind_ok h
    obtain ⟨r2, _, h⟩ := bind_ok h
    obtain ⟨m, _, h⟩ := bind_ok h
    cases h; cases hf
    exact ⟨rfl, by simp [*, UKind.isRoot]⟩
  · cases h; cases hf
  · split at h
    · obtain ⟨r, _, h⟩ := bind_ok h
      obtain ⟨ws1, _, h⟩ := bind_ok h
      obtain ⟨m, _, h⟩ := bind_ok h
      obtain ⟨src2, _, h⟩ := bind_ok h
      obtain ⟨ws2, _, h⟩ := bind_ok h
      obtain ⟨d2, _, h⟩ := bind_ok h
      cases h; cases hf
      exact ⟨rfl, by simp [*, UKind.isRoot]⟩
    · obtain ⟨r, _, h⟩ := bind_ok h
      obtain ⟨ws1, _, h⟩ := bind_ok h
      obtain ⟨src2, _, h⟩ := bind_ok h
      obtain ⟨m, _, h⟩ := bind_ok h
      obtain ⟨ws2, _, h⟩ := bind_ok h
      obtain ⟨m2, _, h⟩ := bind_ok h
      cases h; cases hf
      exact ⟨rfl, by simp [*, UKind.isRoot]⟩
  all_goals
    split at h
    · cases h; cases hf
    · obtain ⟨ka, _, h⟩ := bind_ok h
      obtain ⟨kb, _, h⟩ := bind_ok h
      obtain ⟨r, _, h⟩ := bind_ok h
      obtain ⟨m, _, h⟩ := bind_ok h
      cases h; cases hf

theorem publishD_free {st st' : St} {a : Nat} {op : DelOp} {b : Bool} {tl : Tail} (h : publishD st a op = .ok (b, tl, st')) {n sl : Nat}
    (hf : tl.free = some (n, sl)) :
    sl = op.count + op.prefixSlots ∧ op.kind ≠ .deleteRoot ∧ op.kind ≠ .deleteLeaf256 := by
  unfold publishD at h
  split at h
  · cases h; cases hf
  · cases h; cases hf
    exact ⟨rfl, by simp [*], by simp [*]⟩
  · obtain ⟨r, _, h⟩ := bind_ok h
    obtain ⟨src, _, h⟩ := bind_ok h
    obtain ⟨ws, _, h⟩ := bind_ok h
    cases h; cases hf
    exact ⟨rfl, by simp [*], by simp [*]⟩
  · obtain ⟨r, _, h⟩ := bind_ok h
    obtain ⟨x1, _, h⟩ := bind_ok h
    obtain ⟨x2, _, h⟩ := bind_ok h
    obtain ⟨x3, _, h⟩ := bind_ok h
    obtain ⟨x4, _, h⟩ := bind_ok h
    obtain ⟨x5, _, h⟩ := bind_ok h
    cases h; cases hf
    exact ⟨rfl, by simp [*], by simp [*]⟩
  · cases h; cases hf
  · cases h; cases hf

/-! ## The other steps -/

/-- The state of the block goroutine and the number of allocators are the same. -/
def KeepBa (st st' : St) : Prop := st'.baNext = st.baNext ∧ st'.nalloc = st.nalloc ∧ st'.baReady = st.baReady

theorem KeepBa.refl (st : St) : KeepBa st st := ⟨rfl, rfl, rfl⟩
theorem KeepBa.trans {a b c : St} (h : KeepBa a b) (h' : KeepBa b c) : KeepBa a c := ⟨h'.1.trans h.1, h'.2.1.trans h.2.1, h'.2.2.trans h.2.2⟩

/-- Blocks, allocators and the epoch are the same. -/
structure Quiet (st st' : St) : Prop where
  baNext : st'.baNext = st.baNext
  nalloc : st'.nalloc = st.nalloc
  baReady : st'.baReady = st.baReady
  allocs : st'.allocs = st.allocs
  epoch : st'.epoch = st.epoch

theorem Quiet.refl (st : St) : Quiet st st := ⟨rfl, rfl, rfl, rfl, rfl⟩

theorem Quiet.trans {a b c : St} (h : Quiet a b) (h' : Quiet b c) : Quiet a c :=
  ⟨h'.1.trans h.1, h'.2.trans h.2, h'.3.trans h.3, h'.4.trans h.4, h'.5.trans h.5⟩

theorem Quiet.ba {st st' : St} (h : Quiet st st') : KeepBa st st' := ⟨h.1, h.2, h.3⟩

theorem lockLeafRoot_quiet {st st' : St} {w : Word} {b : Bool} (h : st.lockLeafRoot w = (b, st')) : Quiet st st' := by
  unfold St.lockLeafRoot at h
  repeat' split at h
  all_goals (cases h; exact ⟨rfl, rfl, rfl, rfl, rfl⟩)

theorem lockNodes2_quiet {st st' : St} {node parent : Nat} {ng pg : Int} {b : Bool} (h : st.lockNodes2 node ng parent pg = (b, st')) :
    Quiet st st' := by
  rcases lockNodes2_takes h with ⟨_, h, _⟩ | ⟨_, h⟩ <;> (rw [h]; exact ⟨rfl, rfl, rfl, rfl, rfl⟩)

theorem lockNodes3_quiet {st st' : St} {child node parent : Nat} {cg ng pg : Int} {b : Bool}
    (h : st.lockNodes3 child cg node ng parent pg = (b, st')) : Quiet st st' := by
  rcases lockNodes3_takes h with ⟨_, h, _⟩ | ⟨_, h⟩ <;> (rw [h]; exact ⟨rfl, rfl, rfl, rfl, rfl⟩)

theorem stepU_quiet {st st' : St} {ph ph' : UPh} (h : stepU st ph = .ok (ph', st')) : Quiet st st' := by
  cases ph with
  | start key =>
    simp only [stepU] at h
    split at h <;> (cases h; exact .refl _)
  | root key root =>
    simp only [stepU] at h
    split at h
    · rename_i e
      cases h; exact lockLeafRoot_quiet e
    · rename_i e
      obtain ⟨k, _, h⟩ := bind_ok h
      repeat' split at h
      all_goals (cases h; exact lockLeafRoot_quiet e)
  | gen op =>
    simp only [stepU] at h
    obtain ⟨g, _, h⟩ := bind_ok h
    cases h; exact .refl _
  | ptr op =>
    simp only [stepU] at h
    split at h <;> (cases h; exact .refl _)
  | par op =>
    simp only [stepU] at h
    split at h
    · cases h; exact .refl _
    · obtain ⟨g, _, h⟩ := bind_ok h
      split at h <;> (cases h; exact .refl _)
  | body op =>
    simp only [stepU] at h
    obtain ⟨g, _, h⟩ := bind_ok h
    cases h; exact .refl _
  | lock f op =>
    simp only [stepU] at h
    split at h <;> (rename_i e; cases h; exact lockNodes2_quiet e)
  | held f op => cases h; exact .refl _
  | tail r tl => cases h; exact .refl _

theorem stepD_quiet {st st' : St} {ph ph' : DPh} (h : stepD st ph = .ok (ph', st')) : Quiet st st' := by
  cases ph with
  | start key =>
    simp only [stepD] at h
    split at h
    · cases h; exact .refl _
    · split at h
      · obtain ⟨k, _, h⟩ := bind_ok h
        split at h <;> (cases h; exact .refl _)
      · cases h; exact .refl _
  | root key root =>
    simp only [stepD] at h
    split at h <;> (rename_i e; cases h; exact lockLeafRoot_quiet e)
  | gen cur =>
    simp only [stepD] at h
    obtain ⟨g, _, h⟩ := bind_ok h
    cases h; exact .refl _
  | ptr cur =>
    simp only [stepD] at h
    split at h <;> (cases h; exact .refl _)
  | par cur =>
    simp only [stepD] at h
    split at h
    · cases h; exact .refl _
    · obtain ⟨g, _, h⟩ := bind_ok h
      split at h <;> (cases h; exact .refl _)
  | body cur =>
    simp only [stepD] at h
    obtain ⟨g, _, h⟩ := bind_ok h
    cases h; exact .refl _
  | lock cur =>
    simp only [stepD] at h
    split at h <;> (rename_i e; cases h; exact lockNodes2_quiet e)
  | other cur p plen =>
    simp only [stepD] at h
    split at h
    · obtain ⟨g, _, h⟩ := bind_ok h
      cases h; exact .refl _
    · cases h; exact .refl _
  | cgen cur p other plen =>
    simp only [stepD] at h
    obtain ⟨g, _, h⟩ := bind_ok h
    cases h; exact .refl _
  | cptr cur p other plen =>
    simp only [stepD] at h
    split at h <;> (cases h; exact .refl _)
  | lock3 cur other plen =>
    simp only [stepD] at h
    split at h
    · rename_i e; cases h; exact lockNodes3_quiet e
    · rename_i e
      obtain ⟨r1, _, h⟩ := bind_ok h
      obtain ⟨d, _, h⟩ := bind_ok h
      obtain ⟨r2, _, h⟩ := bind_ok h
      cases h
      exact lockNodes3_quiet e
  | miss key => cases h; exact .refl _
  | held cur => cases h; exact .refl _
  | tail r tl => cases h; exact .refl _

theorem unlockNode_quiet {st st' : St} {n : Nat} (h : st.unlockNode n = .ok st') : Quiet st st' := by
  unfold St.unlockNode at h
  split at h
  · cases h; exact ⟨rfl, rfl, rfl, rfl, rfl⟩
  · cases h

theorem unlockNodes2_quiet {st st' : St} {n p : Nat} (h : st.unlockNodes2 n p = .ok st') : Quiet st st' := by
  unfold St.unlockNodes2 at h
  split at h
  · exact unlockNode_quiet h
  · obtain ⟨s1, h1, h⟩ := bind_ok h
    split at h
    · exact (unlockNode_quiet h1).trans (unlockNode_quiet h)
    · cases h; exact unlockNode_quiet h1

theorem unlockNodes3_quiet {st st' : St} {c n p : Nat} (h : st.unlockNodes3 c n p = .ok st') : Quiet st st' := by
  unfold St.unlockNodes3 at h
  split at h
  · exact unlockNodes2_quiet h
  · obtain ⟨s1, h1, h⟩ := bind_ok h
    split at h <;> simp only at h <;> split at h <;> obtain ⟨s2, h2, h⟩ := bind_ok h
    · exact ((unlockNode_quiet h1).trans (unlockNode_quiet h2)).trans (unlockNode_quiet h)
    · cases h2
      exact (unlockNode_quiet h1).trans (unlockNode_quiet h)
    · cases h
      exact (unlockNode_quiet h1).trans (unlockNode_quiet h2)
    · cases h2
      cases h
      exact unlockNode_quiet h1

theorem recycle_ba {st st' : St} {a n sl : Nat} (h : st.recycle a n sl = .ok st') : KeepBa st st' := by
  unfold St.recycle at h
  simp only at h
  repeat' split at h
  all_goals first | (cases h; exact ⟨rfl, rfl, rfl⟩) | cases h

theorem unlockWords_quiet {l : List Nat} : ∀ {st st' : St} {done : List Nat}, st.unlockWords done l = .ok st' → Quiet st st' := by
  induction l with
  | nil => intro st st' done h; cases h; exact .refl _
  | cons n l ih =>
    intro st st' done h
    unfold St.unlockWords at h
    split at h
    · obtain ⟨s1, h1, h⟩ := bind_ok h
      exact (unlockNode_quiet h1).trans (ih h)
    · exact ih h

theorem unlockBy_quiet {st st' : St} {u : Unlock} (h : st.unlockBy u = .ok st') : Quiet st st' := by
  unfold St.unlockBy at h
  split at h
  · cases h; exact .refl _
  · cases h; exact ⟨rfl, rfl, rfl, rfl, rfl⟩
  · exact unlockNodes2_quiet h
  · exact unlockNodes3_quiet h
  · exact unlockWords_quiet h

theorem exec_unlock_quiet {fetch : Word → Key} {s s' : Sys} {a : Nat} {ev : Ev} (h : exec fetch s (.unlock a) = some (.ok (s', ev))) :
    Quiet s.st s'.st := by
  have key : ∀ {u u' st'}, s.st.unlockOne u = some (.ok (u', st')) → Quiet s.st st' := by
    intro u u' st' h
    rcases unlockOne_ok h with ⟨_, _, rfl⟩ | ⟨n, l, _, _, _, _, rfl⟩ <;> exact ⟨rfl, rfl, rfl, rfl, rfl⟩
  obtain ⟨_, ⟨b, tl, u, st', hp, hs, rfl⟩ | ⟨b, tl, u, st', hp, hs, rfl⟩⟩ := exec_unlock_ok h <;> exact key hs

theorem runTail_ba {st st' : St} {a : Nat} {tl : Tail} (h : st.runTail a tl = .ok st') : KeepBa st st' := by
  unfold St.runTail at h
  obtain ⟨s1, h1, h⟩ := bind_ok h
  have k1 := (unlockBy_quiet h1).ba
  split at h
  · obtain ⟨s2, h2, h⟩ := bind_ok h
    cases h2
    cases h
    exact k1.trans ⟨rfl, rfl, rfl⟩
  · obtain ⟨s2, h2, h⟩ := bind_ok h
    cases h
    exact (k1.trans (recycle_ba h2)).trans ⟨rfl, rfl, rfl⟩

end Radix
