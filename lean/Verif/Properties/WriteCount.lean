import Verif.Model.WriteCount
import Verif.Properties.Serial
import Verif.Properties.Abort
/-!
# C57: what `WriteState` returns
-/
set_option autoImplicit false
namespace Radix

/-- `r` is the result of writing `data` after `w` bytes have been counted. -/
structure WroteFrom (o : Out) (w : Nat) (data : Bytes) (r : Nat × Bool × Out) : Prop where
  same : r.2.2.fails = o.fails
  more : o.calls ≤ r.2.2.calls
  ok : r.2.1 = false → r.1 = w + data.length ∧ r.2.2.got = o.got ++ data ∧ ∀ i, o.calls ≤ i → i < r.2.2.calls → o.fails i = none
  ko : r.2.1 = true → (∃ p, p <+: data ∧ r.2.2.got = o.got ++ p ∧ r.1 ≤ w + p.length) ∧
    ∃ i n, o.calls ≤ i ∧ i + 1 = r.2.2.calls ∧ o.fails i = some n ∧ ∀ j, o.calls ≤ j → j < i → o.fails j = none

theorem Out.write_from (o : Out) (p : Bytes) (w : Nat) : WroteFrom o w p (w + (o.write p).1, (o.write p).2) := by
  unfold Out.write
  split
  · rename_i h
    refine ⟨rfl, by simp, fun _ => ⟨rfl, rfl, fun i h1 h2 => ?_⟩, (fun h => by cases h)⟩
    simp only at h2
    rw [show i = o.calls by omega]; exact h
  · rename_i n h
    refine ⟨rfl, by simp, (fun h => by cases h), fun _ => ⟨⟨p.take n, List.take_prefix .., rfl, by simp⟩, o.calls, n, Nat.le_refl _, rfl, h, fun j h1 h2 => by omega⟩⟩

/-- The number returned with an error may be smaller. -/
theorem WroteFrom.less {o : Out} {w : Nat} {data : Bytes} {n m : Nat} {o' : Out} (h : WroteFrom o w data (n, true, o')) (hm : m ≤ n) :
    WroteFrom o w data (m, true, o') := by
  refine ⟨h.same, h.more, (fun h => by cases h), fun he => ?_⟩
  obtain ⟨⟨p, h1, h2, h3⟩, h4⟩ := h.ko he
  exact ⟨⟨p, h1, h2, by simp only at h3 ⊢; omega⟩, h4⟩

theorem WroteFrom.nil (o : Out) (w : Nat) : WroteFrom o w [] (w, false, o) :=
  ⟨rfl, Nat.le_refl _, fun _ => ⟨rfl, by simp, fun i h1 h2 => by simp only at h2; omega⟩, (fun h => by cases h)⟩

/-- The first part fails. -/
theorem WroteFrom.stop {o : Out} {w : Nat} {d1 d2 : Bytes} {r : Nat × Bool × Out} (h : WroteFrom o w d1 r) (he : r.2.1 = true) :
    WroteFrom o w (d1 ++ d2) r := by
  refine ⟨h.same, h.more, fun h => by (rw [he] at h; cases h), fun _ => ?_⟩
  obtain ⟨⟨p, h1, h2, h3⟩, h4⟩ := h.ko he
  exact ⟨⟨p, h1.trans (List.prefix_append ..), h2, h3⟩, h4⟩

/-- The first part succeeds, and then the second is written. -/
theorem WroteFrom.seq {o : Out} {w : Nat} {d1 d2 : Bytes} {r r2 : Nat × Bool × Out} (h : WroteFrom o w d1 r) (he : r.2.1 = false)
    (h2 : WroteFrom r.2.2 r.1 d2 r2) : WroteFrom o w (d1 ++ d2) r2 := by
  obtain ⟨g1, g2, g3⟩ := h.ok he
  have hm := h.more
  have hm2 := h2.more
  refine ⟨h2.same.trans h.same, by omega, fun e => ?_, fun e => ?_⟩
  · obtain ⟨i1, i2, i3⟩ := h2.ok e
    refine ⟨by rw [i1, g1, List.length_append]; omega, by rw [i2, g2, List.append_assoc], fun i j1 j2 => ?_⟩
    by_cases hi : i < r.2.2.calls
    · exact g3 i j1 hi
    · rw [← h.same]; exact i3 i (by omega) j2
  · obtain ⟨⟨p, i1, i2, i3⟩, i, n, j1, j2, j3, j4⟩ := h2.ko e
    refine ⟨⟨d1 ++ p, (List.prefix_append_right_inj d1).2 i1, by rw [i2, g2, List.append_assoc], by rw [List.length_append]; omega⟩, i, n, by omega, j2,
      by rw [← h.same]; exact j3, fun j k1 k2 => ?_⟩
    by_cases hi : j < r.2.2.calls
    · exact g3 j k1 hi
    · rw [← h.same]; exact j4 j (by omega) k2

theorem eq_of_err {r : Nat × Bool × Out} {b : Bool} (h : r.2.1 = b) : r = (r.1, b, r.2.2) := by
  obtain ⟨n, e, o⟩ := r
  cases h
  rfl

theorem writeLists_from (al : Alloc) : ∀ (l : List Nat) (w : Nat) (o : Out),
    WroteFrom o w (l.flatMap fun i => recyclerBytes i (al.recycler i)) (writeLists al l w o)
  | [], w, o => .nil o w
  | i :: l, w, o => by
    simp only [writeLists, List.flatMap_cons]
    split
    · rename_i h0
      rw [show recyclerBytes i (al.recycler i) = [] by unfold recyclerBytes; rw [if_pos h0]]
      exact writeLists_from al l w o
    · rename_i h0
      rw [show recyclerBytes i (al.recycler i) = recyclerHead i (al.recycler i) ++ (al.recycler i).flatMap fun it => le64 it.n by
        unfold recyclerBytes; rw [if_neg h0]; simp [recyclerHead]]
      rw [List.append_assoc]
      have h1 := o.write_from (recyclerHead i (al.recycler i)) w
      split
      · rename_i e
        refine WroteFrom.stop ?_ rfl
        rw [eq_of_err e] at h1
        exact h1.less (by simp)
      · rename_i e
        refine h1.seq (by simpa using e) ?_
        have h2 := (o.write (recyclerHead i (al.recycler i))).2.2.write_from ((al.recycler i).flatMap fun it => le64 it.n)
          (w + (o.write (recyclerHead i (al.recycler i))).1)
        split
        · rename_i e2
          refine WroteFrom.stop ?_ rfl
          rw [eq_of_err e2] at h2
          exact h2.less (by simp)
        · rename_i e2
          exact h2.seq (by simpa using e2) (writeLists_from al l _ _)

theorem writeAlloc_from (empty : Bool) (al : Alloc) (o : Out) : WroteFrom o 0 (allocBytes empty al) (writeAlloc empty al o) := by
  rw [show allocBytes empty al = allocHead empty al ++ (((List.range recyclerLen).flatMap fun i => recyclerBytes i (al.recycler i)) ++ [nl]) by
    simp [allocBytes, allocHead]]
  simp only [writeAlloc]
  have h1 := o.write_from (allocHead empty al) 0
  simp only [Nat.zero_add] at h1
  split
  · rename_i e
    refine WroteFrom.stop ?_ rfl
    rw [eq_of_err e] at h1
    exact h1
  · rename_i e
    refine h1.seq (by simpa using e) ?_
    have h2 := writeLists_from al (List.range recyclerLen) (o.write (allocHead empty al)).1 (o.write (allocHead empty al)).2.2
    split
    · rename_i e2
      exact h2.stop e2
    · rename_i e2
      refine h2.seq (by simpa using e2) ?_
      have h3 := (writeLists al (List.range recyclerLen) (o.write (allocHead empty al)).1 (o.write (allocHead empty al)).2.2).2.2.write_from [nl]
        (writeLists al (List.range recyclerLen) (o.write (allocHead empty al)).1 (o.write (allocHead empty al)).2.2).1
      split
      · rename_i e3
        rw [eq_of_err e3] at h3
        exact h3.less (by simp)
      · rename_i e3
        rw [eq_of_err (eq_false_of_ne_true e3)] at h3
        exact h3

theorem WroteFrom.add {o : Out} {w : Nat} {data : Bytes} {n : Nat} {e : Bool} {o' : Out} (h : WroteFrom o 0 data (n, e, o')) :
    WroteFrom o w data (n + w, e, o') := by
  refine ⟨h.same, h.more, fun he => ?_, fun he => ?_⟩
  · obtain ⟨h1, h2⟩ := h.ok he
    exact ⟨by simp only at h1 ⊢; omega, h2⟩
  · obtain ⟨⟨p, h1, h2, h3⟩, h4⟩ := h.ko he
    exact ⟨⟨p, h1, h2, by simp only at h3 ⊢; omega⟩, h4⟩

theorem writeAllocs_from (st : St) (empty : Nat → Bool) : ∀ (l : List Nat) (w : Nat) (o : Out),
    WroteFrom o w (l.flatMap (allocatorBytes st empty)) (writeAllocs st empty l w o)
  | [], w, o => .nil o w
  | i :: l, w, o => by
    simp only [writeAllocs, List.flatMap_cons]
    rw [show allocatorBytes st empty i = allocatorHead i ++ allocBytes (empty i) (st.allocs i) by simp [allocatorBytes, allocatorHead], List.append_assoc]
    have h1 := o.write_from (allocatorHead i) w
    split
    · rename_i e
      refine WroteFrom.stop ?_ rfl
      rw [eq_of_err e] at h1
      exact h1.less (by simp only; omega)
    · rename_i e
      refine h1.seq (by simpa using e) ?_
      have h2 := writeAlloc_from (empty i) (st.allocs i) (o.write (allocatorHead i)).2.2
      split
      · rename_i e2
        refine WroteFrom.stop ?_ rfl
        rw [eq_of_err e2] at h2
        exact h2.add
      · rename_i e2
        rw [eq_of_err (eq_false_of_ne_true e2)] at h2
        have h3 := h2.add (w := w + (o.write (allocatorHead i)).1)
        rw [Nat.add_comm (writeAlloc _ _ _).1] at h3
        exact h3.seq rfl (writeAllocs_from st empty l _ _)

theorem writeBlocks_from (enc : Bytes → Bytes) (mem : Mem) : ∀ (l : List Nat) (w : Nat) (o : Out),
    WroteFrom o w (l.flatMap (blockJob enc mem)) (writeBlocks enc mem l w o)
  | [], w, o => .nil o w
  | b :: l, w, o => by
    simp only [writeBlocks, List.flatMap_cons]
    rw [show blockJob enc mem b = blockHead enc mem b ++ enc (blockBytes mem b) by simp [blockJob, blockHead], List.append_assoc]
    have h1 := o.write_from (blockHead enc mem b) w
    split
    · rename_i e
      refine WroteFrom.stop ?_ rfl
      rw [eq_of_err e] at h1
      exact h1.less (by simp)
    · rename_i e
      refine h1.seq (by simpa using e) ?_
      have h2 := (o.write (blockHead enc mem b)).2.2.write_from (enc (blockBytes mem b)) (w + (o.write (blockHead enc mem b)).1)
      split
      · rename_i e2
        refine WroteFrom.stop ?_ rfl
        rw [eq_of_err e2] at h2
        exact h2.less (by simp)
      · rename_i e2
        exact h2.seq (by simpa using e2) (writeBlocks_from enc mem l _ _)

theorem writeState_from (enc : Bytes → Bytes) (empty : Nat → Bool) (st : St) (mem : Mem) (order : List Nat) (o : Out) :
    WroteFrom o 0 (headerBytes st st.nextFreeBlock ++ (List.range st.nalloc).flatMap (allocatorBytes st empty) ++ order.flatMap (blockJob enc mem))
      (writeState enc empty st mem order o) := by
  rw [List.append_assoc]
  simp only [writeState]
  have h1 := o.write_from (headerBytes st st.nextFreeBlock) 0
  simp only [Nat.zero_add] at h1
  split
  · rename_i e
    refine WroteFrom.stop ?_ rfl
    rw [eq_of_err e] at h1
    exact h1.less (by simp)
  · rename_i e
    refine h1.seq (by simpa using e) ?_
    have h2 := writeAllocs_from st empty (List.range st.nalloc) (o.write (headerBytes st st.nextFreeBlock)).1 (o.write (headerBytes st st.nextFreeBlock)).2.2
    split
    · rename_i e2
      exact h2.stop e2
    · rename_i e2
      exact h2.seq (by simpa using e2) (writeBlocks_from enc mem order _ _)

/-! ## The property -/

/-- `WriteState` is called for a tree in state `st` with the writer `out`, which has been given nothing before: it returns `n`, and an error if
`err`, and `got` has been written.  The blocks are written in any order, and the block goroutine may provide one more block meanwhile. -/
def WriteStateReturns (enc : Bytes → Bytes) (empty : Nat → Bool) (st : St) (fails : Nat → Option Nat) (n : Nat) (err : Bool) (got : Bytes) (calls : Nat) : Prop :=
  ∃ st' order, (st' = st ∨ st.blockStep = .ok st') ∧ List.Perm order (List.range st'.nextFreeBlock) ∧
    ∃ o', writeState enc empty st st'.mem order ⟨fails, 0, []⟩ = (n, err, o') ∧ o'.got = got ∧ o'.calls = calls

/-- C57: in full: the number returned is the number of bytes written.  It does not hold, see `C57_does_not_hold`. -/
def C57_statement : Prop :=
  ∀ (enc : Bytes → Bytes) (empty : Nat → Bool) (st : St) (fails : Nat → Option Nat) (n : Nat) (err : Bool) (got : Bytes) (calls : Nat),
    WriteStateReturns enc empty st fails n err got calls → n = got.length

/-- C57: if `WriteState` returns no error, the number returned is the number of bytes written, no call of `Write` has failed, and what was written
is the complete data, from which the tree can be loaded (C29). -/
theorem C57_no_error_partial {enc : Bytes → Bytes} {empty : Nat → Bool} {st : St} {fails : Nat → Option Nat} {n : Nat} {got : Bytes} {calls : Nat}
    (h : WriteStateReturns enc empty st fails n false got calls) :
    n = got.length ∧ (∀ i, i < calls → fails i = none) ∧ Written enc empty st got := by
  obtain ⟨st', order, h1, h2, o', h3, rfl, rfl⟩ := h
  have hw := writeState_from enc empty st st'.mem order ⟨fails, 0, []⟩
  rw [h3] at hw
  obtain ⟨g1, g2, g3⟩ := hw.ok rfl
  simp only [Nat.zero_add, List.nil_append] at g1 g2 g3
  exact ⟨by rw [g1, g2], fun i hi => g3 i (Nat.zero_le _) hi, st', order, h1, h2, g2⟩

/-- C57: if it returns an error, the last call of `Write`, and no other, has failed, what was written is a beginning of the complete data, and the
number returned is not larger than the number of bytes written. -/
theorem C57_error_partial {enc : Bytes → Bytes} {empty : Nat → Bool} {st : St} {fails : Nat → Option Nat} {n : Nat} {got : Bytes} {calls : Nat}
    (h : WriteStateReturns enc empty st fails n true got calls) :
    n ≤ got.length ∧ (∃ i k, i + 1 = calls ∧ fails i = some k ∧ ∀ j, j < i → fails j = none) ∧
      ∃ data, Written enc empty st data ∧ got <+: data := by
  obtain ⟨st', order, h1, h2, o', h3, rfl, rfl⟩ := h
  have hw := writeState_from enc empty st st'.mem order ⟨fails, 0, []⟩
  rw [h3] at hw
  obtain ⟨⟨p, g1, g2, g3⟩, i, k, g4, g5, g6, g7⟩ := hw.ko rfl
  simp only [Nat.zero_add, List.nil_append] at g2 g3 g5 g6 g7
  exact ⟨by rw [g2]; exact g3, ⟨i, k, g5, g6, fun j hj => g7 j (Nat.zero_le _) hj⟩, _, ⟨st', order, h1, h2, rfl⟩, by rw [g2]; exact g1⟩

/-- C57: if no call of `Write` fails, `WriteState` returns no error. -/
theorem C57_succeeds {enc : Bytes → Bytes} {empty : Nat → Bool} {st : St} {fails : Nat → Option Nat} {n : Nat} {err : Bool} {got : Bytes} {calls : Nat}
    (h : WriteStateReturns enc empty st fails n err got calls) (hf : ∀ i, fails i = none) : err = false := by
  cases err with
  | false => rfl
  | true =>
    obtain ⟨_, ⟨i, k, _, h2, _⟩, _⟩ := C57_error_partial h
    rw [hf i] at h2
    cases h2

theorem WriteStateReturns.exists (enc : Bytes → Bytes) (empty : Nat → Bool) (st : St) (fails : Nat → Option Nat) :
    ∃ n err got calls, WriteStateReturns enc empty st fails n err got calls :=
  ⟨_, _, _, _, _, _, .inl rfl, List.Perm.refl _, _, rfl, rfl, rfl⟩

/-- For example, for a tree with six keys and a writer that never fails. -/
example : ∃ s σ, Run (Env.ofList deepKeys deepKeys_good) Calm s σ ∧ content (Env.ofList deepKeys deepKeys_good).fetch s.st [98, 98] = some 5 ∧
    ∃ n got calls, WriteStateReturns (fun x => x) (fun _ => false) s.st (fun _ => none) n false got calls := by
  obtain ⟨s, σ, h1, h2⟩ := Run.ofCheck (h := deepKeys_good) (G := Calm) calm_sound (n := 2) (acts := deepActs)
    (check := fun s _ => decide (content (Env.ofList deepKeys deepKeys_good).fetch s.st [98, 98] = some 5)) (by decide +kernel)
  obtain ⟨n, err, got, calls, h3⟩ := WriteStateReturns.exists (fun x => x) (fun _ => false) s.st (fun _ => none)
  cases C57_succeeds h3 fun _ => rfl
  exact ⟨s, σ, h1, of_decide_eq_true h2, n, got, calls, h3⟩

/-- If the first call of `Write` fails, 0 is returned, whatever it has written (state.go:24-26). -/
theorem C57_header_not_counted {enc : Bytes → Bytes} {empty : Nat → Bool} {st : St} {fails : Nat → Option Nat} {n : Nat} {err : Bool} {got : Bytes}
    {calls k : Nat} (h : WriteStateReturns enc empty st fails n err got calls) (h0 : fails 0 = some k) :
    err = true ∧ n = 0 ∧ got = (headerBytes st st.nextFreeBlock).take k := by
  obtain ⟨st', order, h1, h2, o', h3, rfl, rfl⟩ := h
  simp only [writeState, Out.write, h0, if_true] at h3
  cases h3
  exact ⟨rfl, rfl, by simp⟩

/-- Call number `i` writes `n` bytes and fails. -/
def failAt (i n : Nat) : Nat → Option Nat := fun j => if j = i then some n else none

theorem headerBytes_three (st : St) : 3 ≤ (headerBytes st st.nextFreeBlock).length := by
  simp only [headerBytes, List.length_append, txt, List.length_map, List.length_cons, List.length_nil]
  omega

/-- C57 does not hold in full: in every state, a writer that takes three bytes and fails. -/
theorem C57_does_not_hold : ¬ C57_statement := by
  intro hc
  have hr : WriteStateReturns (fun x => x) (fun _ => true) (Sys.new 1).st (failAt 0 3) 0 true
      ((headerBytes (Sys.new 1).st (Sys.new 1).st.nextFreeBlock).take 3) 1 :=
    ⟨_, _, .inl rfl, List.Perm.refl _, _, rfl, rfl, rfl⟩
  have := hc _ _ _ _ _ _ _ _ hr
  rw [List.length_take] at this
  have := headerBytes_three (Sys.new 1).st
  omega

/-- The first part of the data of an allocator is not counted either if a later part fails, even if this has written nothing (allocator.go:340-342,
358-360, 366-368): in a new tree with one allocator, 65 bytes are missing if the fourth call fails. -/
theorem C57_section_not_counted : ∃ n got, WriteStateReturns (fun x => x) (fun _ => true) (Sys.new 1).st (failAt 3 0) n true got 4 ∧
    got.length = n + 65 := by
  have e : (writeState (fun x => x) (fun _ => true) (Sys.new 1).st (Sys.new 1).st.mem (List.range (Sys.new 1).st.nextFreeBlock) ⟨failAt 3 0, 0, []⟩).2.1 = true := by
    decide +kernel
  exact ⟨_, _, ⟨_, _, .inl rfl, List.Perm.refl _, _, eq_of_err e, rfl, by decide +kernel⟩, by decide +kernel⟩

end Radix
