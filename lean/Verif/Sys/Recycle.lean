import Verif.Sys.Walks
/-!
# Recycled memory and the epoch

What the steps of an execution do to the recycler of an allocator, to its counter and to the epoch, as long as nothing can be taken out of the recyclers.
-/
set_option autoImplicit false
namespace Radix
open T

/-- Recyclers, their counters and the epoch are the same. -/
structure KeepRec (st st' : St) : Prop where
  epoch : st'.epoch = st.epoch
  recycler : ∀ b, (st'.allocs b).recycler = (st.allocs b).recycler
  counter : ∀ b, (st'.allocs b).counter = (st.allocs b).counter

theorem KeepRec.refl (st : St) : KeepRec st st := ⟨rfl, fun _ => rfl, fun _ => rfl⟩

theorem KeepRec.trans {a b c : St} (h : KeepRec a b) (h' : KeepRec b c) : KeepRec a c :=
  ⟨h'.1.trans h.1, fun x => (h'.2 x).trans (h.2 x), fun x => (h'.3 x).trans (h.3 x)⟩

theorem Quiet.keepRec {st st' : St} (h : Quiet st st') : KeepRec st st' := ⟨h.epoch, fun b => by rw [h.allocs], fun b => by rw [h.allocs]⟩

theorem KeepRec.mem {st st' : St} (h : KeepRec st st') (m : Mem) : KeepRec st { st' with mem := m } := ⟨h.1, h.2, h.3⟩

theorem KeepRec.store {st st' : St} (h : KeepRec st st') (p : Ptr) (w : Word) : KeepRec st (st'.store p w) := by
  unfold St.store
  cases p <;> exact ⟨h.1, h.2, h.3⟩

theorem KeepRec.cas {st st' : St} (h : KeepRec st st') (p : Ptr) (o w : Word) : KeepRec st (st'.cas p o w).2 := by
  unfold St.cas
  split
  · exact h.store p w
  · exact h

theorem pickItem_zero (l : List Item) : pickItem 0 l = none := by
  unfold pickItem
  have : l.findIdx? (fun it => it.e < 0) = none := by
    rw [List.findIdx?_eq_none_iff]
    intro x _
    simp
  rw [this]

theorem newNode_rec {st st' : St} {a slots n : Nat} (hm : st.minReservation = 0) (h : st.newNode a slots = .ok (n, st')) : KeepRec st st' := by
  unfold St.newNode at h
  simp only [hm, pickItem_zero, Option.map_none] at h
  have : (sizesToTry slots).findSome? (fun _ : Nat => (none : Option (Nat × Item × List Item))) = none := by
    rw [List.findSome?_eq_none_iff]
    intro _ _; rfl
  rw [this] at h
  simp only at h
  unfold St.allocFresh at h
  simp only at h
  split at h
  · obtain ⟨st1, h1, h2⟩ := bind_ok h
    have k1 : st1.epoch = st.epoch ∧ st1.allocs = st.allocs := by
      unfold St.blockStep at h1
      split at h1
      · cases h1; exact ⟨rfl, rfl⟩
      · split at h1
        · cases h1; exact ⟨rfl, rfl⟩
        · cases h1
    cases h2
    refine ⟨k1.1, fun b => ?_, fun b => ?_⟩ <;> simp only [upd] <;> split <;> first | (rw [k1.2]; done) | (subst_vars; rfl)
  · cases h
    refine ⟨rfl, fun b => ?_, fun b => ?_⟩ <;> simp only [upd] <;> split <;> first | rfl | (subst_vars; rfl)

theorem allocNode_rec {st st' : St} {a count plen n : Nat} {d : Slice} (hm : st.minReservation = 0) (h : st.allocNode a count plen = .ok (n, d, st')) :
    KeepRec st st' := by
  unfold St.allocNode at h
  obtain ⟨⟨n1, st1⟩, h1, h⟩ := bind_ok h
  obtain ⟨d1, h2, h⟩ := bind_ok h
  cases h
  exact newNode_rec hm h1

theorem allocNodeP_rec {st st' : St} {a count n : Nat} {pfx : List UInt8} {d : Slice} (hm : st.minReservation = 0)
    (h : st.allocNodeP a count pfx = .ok (n, d, st')) : KeepRec st st' := by
  unfold St.allocNodeP at h
  obtain ⟨⟨n1, st1⟩, h1, h⟩ := bind_ok h
  obtain ⟨d1, h2, h⟩ := bind_ok h
  split at h
  · obtain ⟨m, h3, h⟩ := bind_ok h
    obtain ⟨d2, h4, h⟩ := bind_ok h
    cases h
    exact (newNode_rec hm h1).mem m
  · cases h
    exact newNode_rec hm h1

theorem buildU_rec {st st' : St} {a : Nat} {op : UpdOp} {fetched : Key} {isMatch : Bool} {value : Word} {cm : Commit}
    (hm : st.minReservation = 0) (h : buildU st a op fetched isMatch value = .ok (cm, st')) : KeepRec st st' := by
  unfold buildU at h
  split at h
  · cases h; exact KeepRec.refl st
  · obtain ⟨⟨n, d, st1⟩, h1, h⟩ := bind_ok h
    obtain ⟨m, h2, h⟩ := bind_ok h
    cases h
    exact (allocNode_rec hm h1).mem m
  · split at h
    · cases h; exact KeepRec.refl st
    · obtain ⟨pl, h0, h⟩ := bind_ok h
      obtain ⟨⟨n, d, st1⟩, h1, h⟩ := bind_ok h
      obtain ⟨ka, h2, h⟩ := bind_ok h
      obtain ⟨kb, h3, h⟩ := bind_ok h
      obtain ⟨m, h4, h⟩ := bind_ok h
      cases h
      exact (allocNodeP_rec hm h1).mem m
  · obtain ⟨ka, h2, h⟩ := bind_ok h
    obtain ⟨kb, h3, h⟩ := bind_ok h
    obtain ⟨⟨n, d, st1⟩, h1, h⟩ := bind_ok h
    obtain ⟨src, h4, h⟩ := bind_ok h
    obtain ⟨ws, h5, h⟩ := bind_ok h
    obtain ⟨⟨n', d', st2⟩, h6, h⟩ := bind_ok h
    obtain ⟨m, h7, h⟩ := bind_ok h
    cases h
    have hc := (allocNodeP_ctl h1).mem (d.copy st1.mem ws)
    have hm' := (minReservation_congr hc.resv hc.nalloc).trans hm
    exact (((allocNodeP_rec hm h1).mem _).trans (allocNodeP_rec hm' h6)).mem m
  · cases h; exact KeepRec.refl st
  · split at h
    · obtain ⟨⟨n, d, st1⟩, h1, h⟩ := bind_ok h
      obtain ⟨ws1, h2, h⟩ := bind_ok h
      obtain ⟨m, h3, h⟩ := bind_ok h
      obtain ⟨src2, h4, h⟩ := bind_ok h
      obtain ⟨ws2, h5, h⟩ := bind_ok h
      obtain ⟨d2, h6, h⟩ := bind_ok h
      cases h
      exact (allocNode_rec hm h1).mem _
    · obtain ⟨⟨n, d, st1⟩, h1, h⟩ := bind_ok h
      obtain ⟨ws1, h2, h⟩ := bind_ok h
      obtain ⟨src2, h4, h⟩ := bind_ok h
      obtain ⟨m, h3, h⟩ := bind_ok h
      obtain ⟨ws2, h5, h⟩ := bind_ok h
      obtain ⟨m2, h6, h⟩ := bind_ok h
      cases h
      exact (allocNodeP_rec hm h1).mem _
  all_goals
    split at h
    · cases h; exact KeepRec.refl st
    · obtain ⟨ka, h2, h⟩ := bind_ok h
      obtain ⟨kb, h3, h⟩ := bind_ok h
      obtain ⟨⟨n, d, st1⟩, h1, h⟩ := bind_ok h
      obtain ⟨m, h4, h⟩ := bind_ok h
      cases h
      exact (allocNodeP_rec hm h1).mem m

theorem buildD_rec {st st' : St} {a : Nat} {op : DelOp} {cm : Commit} (hm : st.minReservation = 0)
    (h : buildD st a op = .ok (cm, st')) : KeepRec st st' := by
  unfold buildD at h
  split at h
  · cases h; exact KeepRec.refl st
  · cases h; exact KeepRec.refl st
  · obtain ⟨⟨n, d, st1⟩, h1, h⟩ := bind_ok h
    obtain ⟨src, h4, h⟩ := bind_ok h
    obtain ⟨ws, h5, h⟩ := bind_ok h
    cases h
    exact (allocNodeP_rec hm h1).mem _
  · obtain ⟨⟨n, d, st1⟩, h1, h⟩ := bind_ok h
    obtain ⟨_, h2, h⟩ := bind_ok h
    obtain ⟨ws1, h2, h⟩ := bind_ok h
    obtain ⟨src2, h4, h⟩ := bind_ok h
    obtain ⟨ws2, h5, h⟩ := bind_ok h
    obtain ⟨d2, h6, h⟩ := bind_ok h
    cases h
    exact (allocNode_rec hm h1).mem _
  · cases h; exact KeepRec.refl st
  · cases h

theorem commit_rec (st : St) (cm : Commit) : KeepRec st (st.commit cm).2.2 := by
  unfold St.commit
  split
  · exact (KeepRec.refl st).store _ _
  · exact (KeepRec.refl st).cas _ _ _

theorem publishU_rec {st st' : St} {a : Nat} {op : UpdOp} {fetched : Key} {isMatch : Bool} {value : Word} {b : Bool} {tl : Tail}
    (hm : st.minReservation = 0) (h : publishU st a op fetched isMatch value = .ok (b, tl, st')) : KeepRec st st' := by
  unfold publishU at h
  split at h
  · cases h; exact (KeepRec.refl st).cas _ _ _
  · obtain ⟨⟨n, d, st1⟩, h1, h⟩ := bind_ok h
    obtain ⟨m, h2, h⟩ := bind_ok h
    cases h
    exact ((allocNode_rec hm h1).mem m).cas _ _ _
  · split at h
    · cases h; exact (KeepRec.refl st).cas _ _ _
    · obtain ⟨pl, h0, h⟩ := bind_ok h
      obtain ⟨⟨n, d, st1⟩, h1, h⟩ := bind_ok h
      obtain ⟨ka, h2, h⟩ := bind_ok h
      obtain ⟨kb, h3, h⟩ := bind_ok h
      obtain ⟨m, h4, h⟩ := bind_ok h
      cases h
      exact ((allocNodeP_rec hm h1).mem m).cas _ _ _
  · obtain ⟨ka, h2, h⟩ := bind_ok h
    obtain ⟨kb, h3, h⟩ := bind_ok h
    obtain ⟨⟨n, d, st1⟩, h1, h⟩ := bind_ok h
    obtain ⟨src, h4, h⟩ := bind_ok h
    obtain ⟨ws, h5, h⟩ := bind_ok h
    obtain ⟨⟨n', d', st2⟩, h6, h⟩ := bind_ok h
    obtain ⟨m, h7, h⟩ := bind_ok h
    cases h
    have hc := (allocNodeP_ctl h1).mem (d.copy st1.mem ws)
    have hm' := (minReservation_congr hc.resv hc.nalloc).trans hm
    exact ((((allocNodeP_rec hm h1).mem _).trans (allocNodeP_rec hm' h6)).mem m).store _ _
  · cases h; exact (KeepRec.refl st).cas _ _ _
  · split at h
    · obtain ⟨⟨n, d, st1⟩, h1, h⟩ := bind_ok h
      obtain ⟨ws1, h2, h⟩ := bind_ok h
      obtain ⟨m, h3, h⟩ := bind_ok h
      obtain ⟨src2, h4, h⟩ := bind_ok h
      obtain ⟨ws2, h5, h⟩ := bind_ok h
      obtain ⟨d2, h6, h⟩ := bind_ok h
      cases h
      exact ((allocNode_rec hm h1).mem _).store _ _
    · obtain ⟨⟨n, d, st1⟩, h1, h⟩ := bind_ok h
      obtain ⟨ws1, h2, h⟩ := bind_ok h
      obtain ⟨src2, h4, h⟩ := bind_ok h
      obtain ⟨m, h3, h⟩ := bind_ok h
      obtain ⟨ws2, h5, h⟩ := bind_ok h
      obtain ⟨m2, h6, h⟩ := bind_ok h
      cases h
      exact ((allocNodeP_rec hm h1).mem _).store _ _
  all_goals
    split at h
    · cases h; exact (KeepRec.refl st).cas _ _ _
    · obtain ⟨ka, h2, h⟩ := bind_ok h
      obtain ⟨kb, h3, h⟩ := bind_ok h
      obtain ⟨⟨n, d, st1⟩, h1, h⟩ := bind_ok h
      obtain ⟨m, h4, h⟩ := bind_ok h
      cases h
      exact ((allocNodeP_rec hm h1).mem m).cas _ _ _

theorem publishD_rec {st st' : St} {a : Nat} {op : DelOp} {b : Bool} {tl : Tail} (hm : st.minReservation = 0)
    (h : publishD st a op = .ok (b, tl, st')) : KeepRec st st' := by
  unfold publishD at h
  split at h
  · cases h; exact (KeepRec.refl st).store _ _
  · cases h; exact (KeepRec.refl st).store _ _
  · obtain ⟨⟨n, d, st1⟩, h1, h⟩ := bind_ok h
    obtain ⟨src, h4, h⟩ := bind_ok h
    obtain ⟨ws, h5, h⟩ := bind_ok h
    cases h
    exact ((allocNodeP_rec hm h1).mem _).store _ _
  · obtain ⟨⟨n, d, st1⟩, h1, h⟩ := bind_ok h
    obtain ⟨_, h2, h⟩ := bind_ok h
    obtain ⟨ws1, h2, h⟩ := bind_ok h
    obtain ⟨src2, h4, h⟩ := bind_ok h
    obtain ⟨ws2, h5, h⟩ := bind_ok h
    obtain ⟨d2, h6, h⟩ := bind_ok h
    cases h
    exact ((allocNode_rec hm h1).mem _).store _ _
  · cases h; exact (KeepRec.refl st).cas _ _ _
  · cases h; exact .refl _

/-- A delete that replaces a node frees it. -/
theorem publishD_frees {st st' : St} {a : Nat} {op : DelOp} {b : Bool} {tl : Tail} (h : publishD st a op = .ok (b, tl, st'))
    (h1 : op.kind ≠ .deleteRoot) (h2 : op.kind ≠ .deleteLeaf256) (h3 : op.kind ≠ .notFound) :
    ∃ n, tl.free = some (n, op.count + op.prefixSlots) := by
  unfold publishD at h
  split at h
  · exact absurd (by assumption) h1
  · cases h; exact ⟨_, rfl⟩
  · obtain ⟨r, _, h⟩ := bind_ok h
    obtain ⟨src, _, h⟩ := bind_ok h
    obtain ⟨ws, _, h⟩ := bind_ok h
    cases h; exact ⟨_, rfl⟩
  · obtain ⟨r, _, h⟩ := bind_ok h
    obtain ⟨x1, _, h⟩ := bind_ok h
    obtain ⟨x2, _, h⟩ := bind_ok h
    obtain ⟨x3, _, h⟩ := bind_ok h
    obtain ⟨x4, _, h⟩ := bind_ok h
    obtain ⟨x5, _, h⟩ := bind_ok h
    cases h; exact ⟨_, rfl⟩
  · exact absurd (by assumption) h2
  · exact absurd (by assumption) h3

/-- The epoch is 0; the first memory to be reused among that of size `sz` is at `A`; at least `c` pieces of memory were recycled. -/
structure Waiting (A sz c : Nat) (st : St) : Prop where
  nalloc : st.nalloc = 1
  epoch : st.epoch = 0
  head : ((st.allocs 0).recycler sz).head? = some ⟨A, 0⟩
  low : c ≤ (st.allocs 0).counter
  high : (st.allocs 0).counter < 1000

/-- The epoch is 1, and the first memory to be reused is still there. -/
structure Ripe (A sz : Nat) (st : St) : Prop where
  nalloc : st.nalloc = 1
  head : ((st.allocs 0).recycler sz).head? = some ⟨A, 0⟩

theorem Waiting.keep {A sz c : Nat} {st st' : St} (h : Waiting A sz c st) (hn : st'.nalloc = st.nalloc) (hk : KeepRec st st') :
    Waiting A sz c st' :=
  ⟨hn.trans h.nalloc, hk.1.trans h.epoch, by rw [hk.2]; exact h.head, by rw [hk.3]; exact h.low, by rw [hk.3]; exact h.high⟩

theorem head?_append_of_some {α : Type} {l l' : List α} {x : α} (h : l.head? = some x) : (l ++ l').head? = some x := by
  cases l with
  | nil => cases h
  | cons => simpa using h

/-- `recycle`: the counter goes up, or a new epoch begins. -/
theorem Waiting.recycle {A sz c : Nat} {st st' : St} (h : Waiting A sz c st) {n slots : Nat} (hr : st.recycle 0 n slots = .ok st') :
    (slots < 258 → Waiting A sz (c + 1) st' ∨ Ripe A sz st') ∧ (Waiting A sz c st' ∨ Ripe A sz st') := by
  unfold St.recycle at hr
  have hhead : (upd (st.allocs 0).recycler slots ((st.allocs 0).recycler slots ++ [⟨n, st.epoch⟩]) sz).head? = some ⟨A, 0⟩ := by
    unfold upd
    split
    · rename_i e; subst e; exact head?_append_of_some h.head
    · exact h.head
  split at hr
  · rename_i hgt
    cases hr
    unfold recyclerLen at hgt
    exact ⟨fun h => by omega, .inl h⟩
  · split at hr
    · simp only at hr
      split at hr
      · cases hr
        have : Ripe A sz (St.flushStats { st with
            epoch := st.epoch + 1
            allocs := upd st.allocs 0 { st.allocs 0 with
              recycler := upd (st.allocs 0).recycler slots ((st.allocs 0).recycler slots ++ [⟨n, st.epoch⟩])
              counter := 0 } } 0) := by
          refine ⟨h.nalloc, ?_⟩
          simp only [St.flushStats, upd_same]
          exact hhead
        exact ⟨fun _ => .inr this, .inr this⟩
      · rename_i hlt
        cases hr
        have h1 := h.low
        have : Waiting A sz (c + 1) { st with allocs := upd st.allocs 0 { st.allocs 0 with
            recycler := upd (st.allocs 0).recycler slots ((st.allocs 0).recycler slots ++ [⟨n, st.epoch⟩])
            counter := (st.allocs 0).counter + 1 } } := by
          refine ⟨h.nalloc, h.epoch, ?_, ?_, ?_⟩
          · simp only [upd_same]; exact hhead
          · simp only [upd_same]; omega
          · simp only [upd_same]; omega
        exact ⟨fun _ => .inl this, .inl ⟨this.nalloc, this.epoch, this.head, Nat.le_of_succ_le this.low, this.high⟩⟩
    · cases hr

theorem Ripe.end_ {A sz : Nat} {st : St} (h : Ripe A sz st) (d : Int) : Ripe A sz ((st.addItems 0 d).endOp 0) :=
  ⟨h.nalloc, by simp only [St.endOp, St.addItems, upd_same]; exact h.head⟩

theorem Waiting.end_ {A sz c : Nat} {st : St} (h : Waiting A sz c st) (d : Int) : Waiting A sz c ((st.addItems 0 d).endOp 0) :=
  ⟨h.nalloc, h.epoch, by simp only [St.endOp, St.addItems, upd_same]; exact h.head, by simp only [St.endOp, St.addItems, upd_same]; exact h.low,
    by simp only [St.endOp, St.addItems, upd_same]; exact h.high⟩

/-- The rest of `Finalize`. -/
theorem Waiting.tail {A sz c : Nat} {st st' : St} (h : Waiting A sz c st) {tl : Tail} (hr : st.runTail 0 tl = .ok st') :
    ((∃ n sl, tl.free = some (n, sl) ∧ sl < 258) → Waiting A sz (c + 1) st' ∨ Ripe A sz st') ∧ (Waiting A sz c st' ∨ Ripe A sz st') := by
  unfold St.runTail at hr
  obtain ⟨s1, h1, hr⟩ := bind_ok hr
  have q := unlockBy_quiet h1
  have w1 := h.keep q.nalloc q.keepRec
  split at hr
  · rename_i hf
    obtain ⟨s2, h2, hr⟩ := bind_ok hr
    cases h2
    cases hr
    refine ⟨?_, .inl (w1.end_ _)⟩
    rintro ⟨_, _, e, _⟩
    rw [hf] at e; cases e
  · rename_i n sl hf
    obtain ⟨s2, h2, hr⟩ := bind_ok hr
    cases hr
    have := w1.recycle h2
    refine ⟨?_, this.2.imp (·.end_ _) (·.end_ _)⟩
    rintro ⟨_, _, e, e2⟩
    rw [hf] at e; cases e
    exact (this.1 e2).imp (·.end_ _) (·.end_ _)

/-- The steps of an execution. -/
theorem Waiting.exec {env : Env} {s s' : Sys} {σ : Spec} {t : T} {seen : Nat → T → Prop} (hI : Inv env s σ t seen) {A sz c : Nat}
    (h : Waiting A sz c s.st) {act : Act} {ev : Ev} (he : exec env.fetch s act = some (.ok (s', ev))) :
    Waiting A sz c s'.st ∨ (Ripe A sz s'.st ∧ ∃ a, act = .tail a ∧ a = 0 ∧ s'.proc = upd s.proc 0 .idle) := by
  have hlt : ∀ {a}, (s.proc a).active = true → a = 0 := by
    intro a ha
    have := hI.lt_of_active ha
    rw [h.nalloc] at this
    omega
  have hmin : ∀ {a}, (s.proc a).active = true → s.st.minReservation = 0 := by
    intro a ha
    have h1 := hI.mem.resv a ha
    have h2 := minReservation_le (hI.lt_of_active ha)
    rw [h.epoch] at h1
    omega
  cases act with
  | begin b c =>
    simp only [Radix.exec] at he
    repeat' split at he
    all_goals cases he
    exact .inl h
  | arm b =>
    simp only [Radix.exec] at he
    split at he
    · cases he; exact .inl (h.keep rfl ⟨rfl, fun _ => rfl, fun _ => rfl⟩)
    · cases he
  | run b =>
    have q := run_quiet he
    exact .inl (h.keep q.nalloc q.keepRec)
  | publish b value =>
    simp only [Radix.exec] at he
    split at he
    · rename_i f op hp
      injection he with he
      obtain ⟨⟨b', tl, st'⟩, hr, he⟩ := bind_ok he
      cases he
      exact .inl (h.keep (publishU_ctl hr).1.nalloc (publishU_rec (hmin (by rw [hp]; rfl)) hr))
    · rename_i cur hp
      injection he with he
      obtain ⟨⟨b', tl, st'⟩, hr, he⟩ := bind_ok he
      cases he
      exact .inl (h.keep (publishD_ctl hr).1.nalloc (publishD_rec (hmin (by rw [hp]; rfl)) hr))
    · cases he
  | build b value =>
    simp only [Radix.exec] at he
    split at he
    · rename_i f op hp
      injection he with he
      obtain ⟨⟨cm, st'⟩, hr, he⟩ := bind_ok he
      cases he
      exact .inl (h.keep (buildU_ctl hr).1.nalloc (buildU_rec (hmin (by rw [hp]; rfl)) hr))
    · rename_i cur hp
      split at he
      · cases he
      injection he with he
      obtain ⟨⟨cm, st'⟩, hr, he⟩ := bind_ok he
      cases he
      exact .inl (h.keep (buildD_ctl hr).1.nalloc (buildD_rec (hmin (by rw [hp]; rfl)) hr))
    · cases he
  | commit b =>
    simp only [Radix.exec] at he
    split at he
    · cases he
      exact .inl (h.keep (commit_ctl _ _).nalloc (commit_rec _ _))
    · cases he
      exact .inl (h.keep (commit_ctl _ _).nalloc (commit_rec _ _))
    · cases he
  | slip b => exact .inl (h.keep (by rw [exec_slip_st he]) (by rw [exec_slip_st he]; exact ⟨rfl, fun _ => rfl, fun _ => rfl⟩))
  | unlock b =>
    have q := exec_unlock_quiet he
    exact .inl (h.keep q.nalloc q.keepRec)
  | quit b => exact .inl (h.keep (by rw [exec_quit_st he]) (by rw [exec_quit_st he]; exact ⟨rfl, fun _ => rfl, fun _ => rfl⟩))
  | tail b =>
    simp only [Radix.exec] at he
    split at he
    · rename_i b' tl hp
      obtain rfl := hlt (a := b) (by rw [hp]; rfl)
      injection he with he
      obtain ⟨st', hr, he⟩ := bind_ok he
      cases he
      rcases (h.tail hr).2 with g | g
      · exact .inl g
      · exact .inr ⟨g, 0, rfl, rfl, rfl⟩
    · rename_i b' tl hp
      obtain rfl := hlt (a := b) (by rw [hp]; rfl)
      injection he with he
      obtain ⟨st', hr, he⟩ := bind_ok he
      cases he
      rcases (h.tail hr).2 with g | g
      · exact .inl g
      · exact .inr ⟨g, 0, rfl, rfl, rfl⟩
    · cases he
  | abort b =>
    simp only [Radix.exec] at he
    split at he
    · injection he with he
      obtain ⟨st', hr, he⟩ := bind_ok he
      cases he
      have q := abortU_quiet hr
      exact .inl (h.keep q.nalloc q.keepRec)
    · injection he with he
      obtain ⟨st', hr, he⟩ := bind_ok he
      cases he
      have q := abortD_quiet hr
      exact .inl (h.keep q.nalloc q.keepRec)
    · cases he
  | finish b =>
    simp only [Radix.exec] at he
    split at he
    all_goals first
      | (cases he; exact .inl (h.keep rfl ⟨rfl, fun _ => rfl, fun _ => rfl⟩))
      | cases he
  | flush b =>
    simp only [Radix.exec] at he
    repeat' split at he
    all_goals cases he
    refine .inl (h.keep rfl ⟨rfl, fun x => ?_, fun x => ?_⟩) <;> simp only [Sys.set, St.flushStats, upd] <;> split <;> first | rfl | (subst_vars; rfl)
  | block =>
    simp only [Radix.exec] at he
    injection he with he
    obtain ⟨st', hr, he⟩ := bind_ok he
    cases he
    have k1 : st'.epoch = s.st.epoch ∧ st'.allocs = s.st.allocs := by
      unfold St.blockStep at hr
      repeat' split at hr
      all_goals cases hr
      all_goals exact ⟨rfl, rfl⟩
    exact .inl (h.keep (blockStep_ctl hr).nalloc ⟨k1.1, fun _ => by rw [k1.2], fun _ => by rw [k1.2]⟩)

/-- Once nothing is reserved any more, the memory is handed out. -/
theorem Ripe.reused {A sz : Nat} {st : St} (h : Ripe A sz st) (hsz : sz < recyclerLen) (hr : st.resv 0 = maxUint64) :
    ∃ st', newNodes st 0 [sz] = .ok ([(A, sz)], st') := by
  have hm : st.minReservation = maxUint64 := by
    unfold St.minReservation
    rw [h.nalloc]
    simp only [List.range_one, List.foldl_cons, List.foldl_nil, hr]
    split <;> rfl
  have hnew : ∃ st', st.newNode 0 sz = .ok (A, st') := by
    unfold St.newNode sizesToTry
    have hp : ∃ rest, pickItem st.minReservation ((st.allocs 0).recycler sz) = some (⟨A, 0⟩, rest) := by
      have hh := h.head
      cases hl : (st.allocs 0).recycler sz with
      | nil => rw [hl] at hh; cases hh
      | cons x xs =>
        rw [hl] at hh
        simp only [List.head?_cons, Option.some.injEq] at hh
        subst hh
        unfold pickItem
        have : (⟨A, 0⟩ :: xs : List Item).findIdx? (fun it => it.e < st.minReservation) = some 0 := by
          rw [hm]
          simp [List.findIdx?_cons, maxUint64]
        rw [this]
        have hlast : ∃ y, (⟨A, 0⟩ :: xs : List Item).getLast? = some y := ⟨_, List.getLast?_eq_some_getLast (by simp)⟩
        obtain ⟨y, hy⟩ := hlast
        rw [hy]
        exact ⟨_, rfl⟩
    obtain ⟨rest, hp⟩ := hp
    simp only [if_pos hsz, List.findSome?_cons, hp, Option.map_some]
    exact ⟨_, rfl⟩
  obtain ⟨st', hn⟩ := hnew
  refine ⟨st', ?_⟩
  simp only [newNodes, hn, bind, Except.bind, pure, Except.pure]

end Radix
