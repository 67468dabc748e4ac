import Verif.Properties.Concurrent
import Verif.Sys.Recycle
import Verif.Sys.Apart
import Verif.Split
/-!
# How much memory a number of operations can take

`spent S st` weighs the blocks handed out against what is left of the current block of each allocator.  A request for at most `S` slots increases it by
at most `8 * S` (bytes); nothing else changes it.
-/
set_option autoImplicit false
namespace Radix
open T

/-- What is left of the current blocks, in bytes. -/
def left (st : St) : Int := ((List.range st.nalloc).map fun a => (blockSize : Int) - (st.allocs a).nextFree).sum

/-- Bytes of the blocks handed out, `8 * S` of each not counted, without what is left of the current ones. -/
def spent (S : Nat) (st : St) : Int := st.baNext * ((blockSize : Int) - 8 * S) - left st

/-- No allocator is past the end of its block. -/
def InBlock (st : St) : Prop := ∀ a, a < st.nalloc → (st.allocs a).nextFree ≤ blockSize

/-- The part of the state that counts here. -/
structure KeepBump (st st' : St) : Prop where
  baNext : st'.baNext = st.baNext
  nalloc : st'.nalloc = st.nalloc
  next : ∀ a, a < st.nalloc → (st'.allocs a).nextFree = (st.allocs a).nextFree

theorem KeepBump.refl (st : St) : KeepBump st st := ⟨rfl, rfl, fun _ _ => rfl⟩

theorem KeepBump.trans {a b c : St} (h : KeepBump a b) (h' : KeepBump b c) : KeepBump a c :=
  ⟨h'.1.trans h.1, h'.2.trans h.2, fun x hx => (h'.3 x (by rw [h.2]; exact hx)).trans (h.3 x hx)⟩

theorem Quiet.bump {st st' : St} (h : Quiet st st') : KeepBump st st' := ⟨h.baNext, h.nalloc, fun a _ => by rw [h.allocs]⟩

theorem KeepBump.left {st st' : St} (h : KeepBump st st') : left st' = left st := by
  unfold Radix.left
  rw [h.nalloc]
  congr 1
  apply List.map_congr_left
  intro a ha
  rw [h.next a (List.mem_range.1 ha)]

theorem KeepBump.spent {st st' : St} (h : KeepBump st st') (S : Nat) : spent S st' = spent S st := by
  unfold Radix.spent
  rw [h.left, h.baNext]

theorem KeepBump.inBlock {st st' : St} (h : KeepBump st st') (hi : InBlock st) : InBlock st' := by
  intro a ha
  rw [h.nalloc] at ha
  rw [h.next a ha]
  exact hi a ha

theorem isum_upd {f : Nat → Int} {c : Nat} {v : Int} (l : List Nat) (hn : l.Nodup) (hc : c ∈ l) :
    (l.map (upd f c v)).sum + f c = (l.map f).sum + v := by
  induction l with
  | nil => simp at hc
  | cons b l ih =>
    rw [List.nodup_cons] at hn
    simp only [List.map_cons, List.sum_cons]
    by_cases hb : b = c
    · subst hb
      have : l.map (upd f b v) = l.map f := by
        apply List.map_congr_left
        intro x hx
        exact upd_of_ne _ _ (fun e => hn.1 (e ▸ hx))
      rw [this, upd_same]
      omega
    · rw [upd_of_ne _ _ hb]
      have := ih hn.2 (by simpa [Ne.symm hb] using hc)
      omega

theorem left_upd {st st' : St} {a : Nat} (ha : a < st.nalloc) (hn : st'.nalloc = st.nalloc)
    (h : ∀ b, b ≠ a → st'.allocs b = st.allocs b) :
    left st' + (st'.allocs a).nextFree = left st + (st.allocs a).nextFree := by
  have := isum_upd (f := fun a => (blockSize : Int) - (st.allocs a).nextFree) (c := a) (v := (blockSize : Int) - (st'.allocs a).nextFree)
    (List.range st.nalloc) List.nodup_range (List.mem_range.2 ha)
  have e : (List.range st.nalloc).map (fun b => (blockSize : Int) - (st'.allocs b).nextFree) =
      (List.range st.nalloc).map (upd (fun a => (blockSize : Int) - (st.allocs a).nextFree) a ((blockSize : Int) - (st'.allocs a).nextFree)) := by
    apply List.map_congr_left
    intro b _
    by_cases hb : b = a
    · subst hb; simp
    · simp [upd_of_ne _ _ hb, h b hb]
  unfold left
  rw [hn, e]
  omega

theorem left_nonneg {st : St} (h : InBlock st) : 0 ≤ left st := by
  unfold left
  have : ∀ l : List Nat, (∀ a ∈ l, a < st.nalloc) → 0 ≤ (l.map fun a => (blockSize : Int) - (st.allocs a).nextFree).sum := by
    intro l
    induction l with
    | nil => intro _; simp
    | cons a l ih =>
      intro hl
      simp only [List.map_cons, List.sum_cons]
      have h1 := h a (hl a (by simp))
      have h2 := ih fun b hb => hl b (by simp [hb])
      omega
  exact this _ fun a ha => List.mem_range.1 ha

theorem left_le (st : St) : left st ≤ st.nalloc * blockSize := by
  unfold left
  have : ∀ l : List Nat, (l.map fun a => (blockSize : Int) - (st.allocs a).nextFree).sum ≤ l.length * blockSize := by
    intro l
    induction l with
    | nil => simp
    | cons a l ih =>
      simp only [List.map_cons, List.sum_cons, List.length_cons]
      rw [Int.natCast_add, Int.add_mul]
      omega
  simpa using this (List.range st.nalloc)

/-- `x` makes at most `k` requests for at most `S` slots each. -/
def Spends (S k : Nat) (st : St) {α : Type} (x : Res α) (f : α → St) : Prop :=
  InBlock st → ∀ r, x = .ok r → InBlock (f r) ∧ (f r).nalloc = st.nalloc ∧ spent S (f r) ≤ spent S st + 8 * S * k

theorem Spends.ret {S k : Nat} {st : St} {α : Type} {f : α → St} {a : α} (h : KeepBump st (f a)) : Spends S k st (.ok a) f := by
  intro hi r e
  cases e
  refine ⟨h.inBlock hi, h.nalloc, ?_⟩
  rw [h.spent]
  have : 0 ≤ 8 * (S : Int) * k := Int.mul_nonneg (by omega) (by omega)
  omega

theorem Spends.bindN {S k : Nat} {st : St} {α β : Type} {x : Res α} {g : α → Res β} {f : β → St}
    (hg : ∀ a, Spends S k st (g a) f) : Spends S k st (x >>= g) f := by
  intro hi b h
  obtain ⟨a, _, h⟩ := bind_ok h
  exact hg a hi b h

theorem Spends.bind {S k : Nat} {st : St} {α β : Type} {x : Res α} {f1 : α → St} {g : α → Res β} {f : β → St} (hx : Spends S 1 st x f1)
    (hg : ∀ a, (f1 a).nalloc = st.nalloc → Spends S k (f1 a) (g a) f) : Spends S (k + 1) st (x >>= g) f := by
  intro hi b h
  obtain ⟨a, h1, h⟩ := bind_ok h
  obtain ⟨i1, n1, s1⟩ := hx hi a h1
  obtain ⟨i2, n2, s2⟩ := hg a n1 i1 b h
  refine ⟨i2, n2.trans n1, ?_⟩
  rw [Int.natCast_add, Int.mul_add]
  omega

theorem Spends.congr {S k : Nat} {st st1 : St} {α : Type} {x : Res α} {f : α → St} (h : KeepBump st st1) (hx : Spends S k st1 x f) :
    Spends S k st x f := by
  intro hi r e
  obtain ⟨i, n, s⟩ := hx (h.inBlock hi) r e
  exact ⟨i, n.trans h.nalloc, by rw [h.spent] at s; exact s⟩

/-- Only allocator `a` has changed; it has taken a new block, or none. -/
theorem spent_step {S : Nat} {st st' : St} {a slots k : Nat} (ha : a < st.nalloc) (hs : slots ≤ S) (hS : 8 * S ≤ blockSize) (hi : InBlock st)
    (hn : st'.nalloc = st.nalloc) (hb : st'.baNext = st.baNext + k) (ho : ∀ b, b ≠ a → st'.allocs b = st.allocs b)
    (h : (k = 0 ∧ (st'.allocs a).nextFree = (st.allocs a).nextFree + slots * 8 ∧ (st'.allocs a).nextFree ≤ blockSize) ∨
      (k = 1 ∧ (st'.allocs a).nextFree = slots * 8 ∧ blockSize ≤ (st.allocs a).nextFree + slots * 8)) :
    InBlock st' ∧ st'.nalloc = st.nalloc ∧ spent S st' ≤ spent S st + 8 * S * (1 : Nat) := by
  refine ⟨?_, hn, ?_⟩
  · intro b hb'
    rw [hn] at hb'
    by_cases hba : b = a
    · subst hba; omega
    · rw [ho b hba]; exact hi b hb'
  · have e := left_upd ha hn ho
    unfold spent
    rw [hb]
    rcases h with ⟨rfl, h1, _⟩ | ⟨rfl, h1, h2⟩
    · simp only [Nat.add_zero]
      omega
    · rw [Int.natCast_add, Int.add_mul]
      omega

theorem newNode_spends {S : Nat} {st : St} {a slots : Nat} (ha : a < st.nalloc) (hs : slots ≤ S) (hS : 8 * S ≤ blockSize) :
    Spends S 1 st (st.newNode a slots) (·.2) := by
  intro hi r h
  unfold St.newNode at h
  simp only at h
  split at h
  · cases h
    have hk : ∀ rr, KeepBump st { st with allocs := upd st.allocs a { st.allocs a with recycler := rr } } :=
      fun rr => ⟨rfl, rfl, fun b _ => by by_cases hb : b = a <;> simp [upd, hb]⟩
    exact Spends.ret (k := 1) (f := fun r : Nat × St => r.2) (a := (_, _)) (hk _) hi _ rfl
  · unfold St.allocFresh at h
    simp only at h
    split at h
    · rename_i hge
      obtain ⟨s1, h1, h⟩ := bind_ok h
      have e1 : s1.baNext = st.baNext ∧ s1.nalloc = st.nalloc ∧ s1.allocs = st.allocs := by
        unfold St.blockStep at h1
        repeat' split at h1
        all_goals first | (cases h1; exact ⟨rfl, rfl, rfl⟩) | cases h1
      cases h
      refine spent_step (k := 1) ha hs hS hi e1.2.1 (by simp only [e1.1]) (fun b hb => ?_) (.inr ⟨rfl, ?_, by omega⟩)
      · simp only [e1.2.2]; exact upd_of_ne _ _ hb
      · simp only [upd_same]
    · cases h
      refine spent_step (k := 0) ha hs hS hi rfl rfl (fun b hb => upd_of_ne _ _ hb) (.inl ⟨rfl, ?_, ?_⟩)
      · simp only [upd_same]
      · simp only [upd_same]; omega

theorem allocNode_spends {S : Nat} {st : St} {a count plen : Nat} (ha : a < st.nalloc) (hs : count + prefixSlots plen ≤ S)
    (hS : 8 * S ≤ blockSize) : Spends S 1 st (st.allocNode a count plen) (·.2.2) := by
  intro hi r h
  unfold St.allocNode at h
  obtain ⟨⟨n1, st1⟩, h1, h⟩ := bind_ok h
  have h2 := newNode_spends ha hs hS hi _ h1
  obtain ⟨d1, _, h⟩ := bind_ok h
  cases h
  exact h2

theorem allocNodeP_spends {S : Nat} {st : St} {a count : Nat} {pfx : List UInt8} (ha : a < st.nalloc)
    (hs : count + prefixSlots pfx.length ≤ S) (hS : 8 * S ≤ blockSize) : Spends S 1 st (st.allocNodeP a count pfx) (·.2.2) := by
  intro hi r h
  unfold St.allocNodeP at h
  obtain ⟨⟨n1, st1⟩, h1, h⟩ := bind_ok h
  have h2 := newNode_spends ha hs hS hi _ h1
  obtain ⟨d1, _, h⟩ := bind_ok h
  split at h
  · obtain ⟨m, _, h⟩ := bind_ok h
    obtain ⟨d2, _, h⟩ := bind_ok h
    cases h
    exact ⟨h2.1, h2.2.1, h2.2.2⟩
  · cases h
    exact h2

theorem cas_bump (st : St) (p : Ptr) (o w : Word) : KeepBump st (st.cas p o w).2 := by
  unfold St.cas St.store
  split
  · cases p <;> exact ⟨rfl, rfl, fun _ _ => rfl⟩
  · exact .refl _

theorem store_bump (st : St) (p : Ptr) (w : Word) : KeepBump st (st.store p w) := by
  unfold St.store
  cases p <;> exact ⟨rfl, rfl, fun _ _ => rfl⟩

theorem mem_bump (st : St) (m : Mem) : KeepBump st { st with mem := m } := ⟨rfl, rfl, fun _ _ => rfl⟩

theorem prefixSlots_mono {m n : Nat} (h : m ≤ n) : prefixSlots m ≤ prefixSlots n := by
  unfold prefixSlots
  split <;> split <;> omega

/-- Building the new nodes of an update takes at most two requests. -/
theorem buildU_spends {S L : Nat} {st : St} {a : Nat} {op : UpdOp} {fetched : Key} {isMatch : Bool} {value : Word} (ha : a < st.nalloc)
    (hL : 256 + prefixSlots L ≤ S) (hS : 8 * S ≤ blockSize) (hc : op.kind.isRoot = false → op.count ≤ 256 ∧ op.pfx.length ≤ L)
    (hk : op.key.length ≤ L) : Spends S 2 st (buildU st a op fetched isMatch value) (·.2) := by
  have fit : ∀ {c l : Nat}, c ≤ 256 → l ≤ L → c + prefixSlots l ≤ S := fun h1 h2 => by have := prefixSlots_mono h2; omega
  have two : ∀ {l : Nat}, l ≤ L → 2 + prefixSlots l ≤ S := fun h => fit (by omega) h
  unfold buildU
  split
  · exact .ret (.refl _)
  · exact .bind (allocNode_spends ha (two (Nat.zero_le _)) hS) fun r _ => .bindN fun m => .ret (mem_bump _ _)
  · split
    · exact .ret (.refl _)
    · exact .bindN fun n => .bind (allocNodeP_spends ha (two (by simp; omega)) hS) fun r _ => .bindN fun ka => .bindN fun kb =>
        .bindN fun m => .ret (mem_bump _ _)
  · rename_i e
    obtain ⟨hc, hp⟩ := hc (by rw [e]; rfl)
    exact .bindN fun ka => .bindN fun kb => .bind (allocNodeP_spends ha (fit hc (by simp; omega)) hS) fun r hn => .bindN fun src =>
      .bindN fun ws => .congr (mem_bump _ _) (.bind (k := 0) (st := { r.2.2 with mem := r.2.1.copy r.2.2.mem ws })
        (allocNodeP_spends (by rw [← hn] at ha; exact ha) (two (by simp; omega)) hS) fun r2 _ =>
      .bindN fun m => .ret (mem_bump _ _))
  · exact .ret (.refl _)
  · rename_i e
    obtain ⟨hc, hp⟩ := hc (by rw [e]; rfl)
    split
    · rename_i hlt
      have : op.count < 127 := hlt
      exact .bind (allocNode_spends ha (fit (by omega) hp) hS) fun r _ => .bindN fun _ => .bindN fun _ => .bindN fun _ =>
        .bindN fun _ => .bindN fun _ => .ret (mem_bump _ _)
    · exact .bind (allocNodeP_spends ha (fit (Nat.le_refl _) hp) hS) fun r _ => .bindN fun _ => .bindN fun _ => .bindN fun _ =>
        .bindN fun _ => .bindN fun _ => .ret (mem_bump _ _)
  all_goals
    split
    · exact .ret (.refl _)
    · exact .bindN fun ka => .bindN fun kb => .bind (allocNodeP_spends ha (two (by simp; omega)) hS) fun r _ =>
        .bindN fun m => .ret (mem_bump _ _)

/-- Building the new node of a delete takes at most one request. -/
theorem buildD_spends {S L : Nat} {st : St} {a : Nat} {op : DelOp} (ha : a < st.nalloc) (hL : 256 + prefixSlots L ≤ S)
    (hS : 8 * S ≤ blockSize)
    (hm : op.kind = .replaceNodeWithNode → op.count ≤ 256 ∧ op.pfx.length ≤ L)
    (hd : op.kind = .deleteLeaf → op.count ≤ 256 ∧ op.prefixLen ≤ L) : Spends S 2 st (buildD st a op) (·.2) := by
  have fit : ∀ {c l : Nat}, c ≤ 256 → l ≤ L → c + prefixSlots l ≤ S := fun h1 h2 => by have := prefixSlots_mono h2; omega
  unfold buildD
  split
  · exact .ret (.refl _)
  · exact .ret (.refl _)
  · rename_i e
    exact .bind (allocNodeP_spends ha (fit (hm e).1 (hm e).2) hS) fun r _ => .bindN fun src => .bindN fun ws => .ret (mem_bump _ _)
  · rename_i e
    have := (hd e).1
    exact .bind (allocNode_spends ha (fit (by omega) (hd e).2) hS) fun r _ => .bindN fun _ => .bindN fun _ => .bindN fun _ => .bindN fun _ =>
      .bindN fun _ => .ret (mem_bump _ _)
  · exact .ret (.refl _)
  · intro _ _ h
    cases h

theorem commit_bump (st : St) (cm : Commit) : KeepBump st (st.commit cm).2.2 := by
  unfold St.commit
  split
  · exact store_bump ..
  · exact cas_bump ..

theorem Spends.commit {S k : Nat} {st : St} {x : Res (Commit × St)} (h : Spends S k st x (·.2)) :
    Spends S k st (x >>= fun r => return r.2.commit r.1) (·.2.2) := by
  intro hi b e
  obtain ⟨r, e1, e⟩ := bind_ok e
  cases e
  obtain ⟨h1, h2, h3⟩ := h hi r e1
  have hb := commit_bump r.2 r.1
  exact ⟨hb.inBlock h1, hb.nalloc.trans h2, by rw [hb.spent]; exact h3⟩

theorem buildU_noBlocks {st : St} {a : Nat} {op : UpdOp} {fetched : Key} {isMatch : Bool} {value : Word}
    (h : buildU st a op fetched isMatch value = .error .noBlocks) : maxBlockCount < st.baNext + 2 := by
  apply (publishU_needs st a op fetched isMatch value).2
  rw [publishU_eq, h]
  rfl

theorem buildD_noBlocks {st : St} {a : Nat} {op : DelOp} (h : buildD st a op = .error .noBlocks) : maxBlockCount < st.baNext + 1 := by
  have hk : op.kind ≠ .notFound := by
    intro e
    unfold buildD at h
    rw [e] at h
    cases h
  apply (publishD_needs st a op).2
  rw [publishD_eq _ _ _ hk, h]
  rfl

theorem blockStep_noBlocks {st : St} (h : st.blockStep = .error .noBlocks) : maxBlockCount < st.baNext + 1 := by
  unfold St.blockStep at h
  repeat' split at h
  all_goals first | (cases h; done) | omega

theorem upd_bump {st st' : St} {a : Nat} {al : Alloc} (h1 : st'.baNext = st.baNext) (h2 : st'.nalloc = st.nalloc)
    (h3 : st'.allocs = upd st.allocs a al) (h4 : al.nextFree = (st.allocs a).nextFree) : KeepBump st st' := by
  refine ⟨h1, h2, fun b _ => ?_⟩
  rw [h3]
  by_cases hb : b = a
  · subst hb; rw [upd_same, h4]
  · rw [upd_of_ne _ _ hb]

theorem flushStats_bump (st : St) (a : Nat) : KeepBump st (st.flushStats a) := upd_bump (a := a) rfl rfl rfl rfl

theorem addItems_bump (st : St) (a : Nat) (i : Int) : KeepBump st ((st.addItems a i).endOp a) := upd_bump (a := a) rfl rfl rfl rfl

theorem recycle_bump {st st' : St} {a n sl : Nat} (h : st.recycle a n sl = .ok st') : KeepBump st st' := by
  unfold St.recycle at h
  simp only at h
  repeat' split at h
  all_goals first | (cases h; done) | skip
  all_goals cases h
  all_goals first | exact .refl _ | exact upd_bump (a := a) rfl rfl rfl rfl | skip
  refine KeepBump.trans ?_ (flushStats_bump _ _)
  exact upd_bump (a := a) rfl rfl rfl rfl

theorem runTail_bump {st st' : St} {a : Nat} {tl : Tail} (h : st.runTail a tl = .ok st') : KeepBump st st' := by
  unfold St.runTail at h
  obtain ⟨s1, h1, h⟩ := bind_ok h
  have k1 := (unlockBy_quiet h1).bump
  split at h
  · obtain ⟨s2, h2, h⟩ := bind_ok h
    cases h2
    cases h
    exact k1.trans (addItems_bump ..)
  · obtain ⟨s2, h2, h⟩ := bind_ok h
    cases h
    exact (k1.trans (recycle_bump h2)).trans (addItems_bump ..)

/-- The steps of `Finalize` that allocate. -/
def Act.alloc : Act → Nat
  | .publish _ _ => 1
  | .build _ _ => 1
  | _ => 0

section
variable {env : Env} {s s' : Sys} {σ : Spec} {t : T} {seen : Nat → T → Prop} {L S : Nat}

theorem pfx_len (hI : Inv env s σ t seen) (hlen : ∀ k, env.keys k → k.length ≤ L) {q : Key} {n : Nat} {pfx : List UInt8} {big : Bool}
    {ch : UInt8 → T} (h : At t q (.node n pfx big ch)) : q.length + pfx.length + 1 ≤ L := by
  obtain ⟨_, k, v, c, hP, hpre⟩ := (h.wf hI.mem.core.wf).1
  have h1 := hlen _ hP.1
  have h2 := hpre.length_le
  simp at h2
  omega

theorem cnt_le256 (big : Bool) (ch : UInt8 → T) : cnt big ch ≤ 256 := by
  unfold cnt
  split
  · exact Nat.le_refl _
  · exact cntOf_le _

theorem heldU_fit (hI : Inv env s σ t seen) (hlen : ∀ k, env.keys k → k.length ≤ L) {a : Nat} {f : Bool} {op : UpdOp}
    (hp : s.proc a = .upd (.held f op)) : (op.kind.isRoot = false → op.count ≤ 256 ∧ op.pfx.length ≤ L) ∧ op.key.length ≤ L := by
  have h := hI.proc a
  rw [hp] at h
  obtain ⟨h1, _, _, h2⟩ := h
  refine ⟨fun hr => ?_, hlen _ h1⟩
  rcases h2 with ⟨h2, _⟩ | ⟨_, q, pfx, big, ch, hu, _⟩
  · rw [hr] at h2; cases h2
  · rw [hu.count, hu.pre]
    have := pfx_len hI hlen hu.at'
    exact ⟨cnt_le256 _ _, by omega⟩

theorem heldD_fit (hI : Inv env s σ t seen) (hlen : ∀ k, env.keys k → k.length ≤ L) {a : Nat} {cur : DelCur}
    (hp : s.proc a = .del (.held cur)) : (cur.op.kind = .replaceNodeWithNode → cur.op.count ≤ 256 ∧ cur.op.pfx.length ≤ L) ∧
      (cur.op.kind = .deleteLeaf → cur.op.count ≤ 256 ∧ cur.op.prefixLen ≤ L) := by
  have h := hI.proc a
  rw [hp] at h
  obtain ⟨_, ⟨h1, _⟩ | ⟨h1, q, pfx, ch, hk, _⟩ | ⟨h1, q, pfx, k, k2, lk, lv, pfx2, big2, kids, hm, _, _, hpre, _⟩ | ⟨h1, _⟩⟩ := h
  · rw [h1]; exact ⟨(fun h => by cases h), (fun h => by cases h)⟩
  · refine ⟨fun h => ?_, fun h => ?_⟩
    · rcases h1 with h1 | h1 <;> rw [h1] at h <;> cases h
    · rcases hk.kind with ⟨_, k, lk, lv, _, _, _, h2, h3, _⟩ | ⟨h2, _⟩
      · rw [h2, h3]
        have := pfx_len hI hlen hk.at'
        exact ⟨cntOf_le _, by omega⟩
      · rw [h2] at h; cases h
  · refine ⟨fun _ => ?_, fun h => by rw [h1] at h; cases h⟩
    have h2 := hm.at'.child k2
    rw [ch2_snd] at h2
    have h3 := pfx_len hI hlen h2
    rw [hm.count, hpre]
    simp only [List.length_append, List.length_cons, List.length_nil] at h3 ⊢
    exact ⟨cnt_le256 _ _, by omega⟩
  · rw [h1]; exact ⟨(fun h => by cases h), (fun h => by cases h)⟩

theorem active_lt (hI : Inv env s σ t seen) {a : Nat} (h : s.proc a ≠ .idle) : a < s.st.nalloc := by
  rcases Nat.lt_or_ge a s.st.nalloc with h1 | h1
  · exact h1
  · exact absurd (hI.mem.off a h1) h

/-- A step makes requests only if it is the first part of `Finalize`, and then at most two. -/
theorem exec_spends (hI : Inv env s σ t seen) (hlen : ∀ k, env.keys k → k.length ≤ L) (hL : 256 + prefixSlots L ≤ S) (hS : 8 * S ≤ blockSize)
    {act : Act} {ev : Ev} (h : exec env.fetch s act = some (.ok (s', ev))) (hi : InBlock s.st) :
    InBlock s'.st ∧ s'.st.nalloc = s.st.nalloc ∧ spent S s'.st ≤ spent S s.st + 16 * S * act.alloc := by
  have keep : ∀ {st : St}, s'.st = st → KeepBump s.st st → InBlock s'.st ∧ s'.st.nalloc = s.st.nalloc ∧
      spent S s'.st ≤ spent S s.st + 16 * S * act.alloc := by
    intro st e hk
    subst e
    refine ⟨hk.inBlock hi, hk.nalloc, ?_⟩
    rw [hk.spent]
    have : 0 ≤ 16 * (S : Int) * act.alloc := Int.mul_nonneg (by omega) (by omega)
    omega
  cases act with
  | begin b c =>
    simp only [exec] at h
    repeat' split at h
    all_goals cases h
    exact keep rfl (.refl _)
  | arm b =>
    simp only [exec] at h
    split at h
    · cases h; exact keep rfl ⟨rfl, rfl, fun _ _ => rfl⟩
    · cases h
  | run b => exact keep rfl (run_quiet h).bump
  | publish b value =>
    simp only [exec] at h
    split at h
    · rename_i f op hp
      injection h with h
      obtain ⟨⟨_, _, st1⟩, h1, h⟩ := bind_ok h
      cases h
      rw [publishU_eq] at h1
      obtain ⟨f1, f2⟩ := heldU_fit hI hlen hp
      obtain ⟨g1, g2, g3⟩ := (buildU_spends (active_lt hI (by rw [hp]; intro h; cases h)) hL hS f1 f2).commit hi _ h1
      refine ⟨g1, g2, ?_⟩
      dsimp only [Act.alloc, Sys.set] at g3 ⊢
      omega
    · rename_i cur hp
      injection h with h
      obtain ⟨⟨_, _, st1⟩, h1, h⟩ := bind_ok h
      cases h
      by_cases hk : cur.op.kind = .notFound
      · unfold publishD at h1
        rw [hk] at h1
        cases h1
        exact keep rfl (.refl _)
      rw [publishD_eq _ _ _ hk] at h1
      obtain ⟨f1, f2⟩ := heldD_fit hI hlen hp
      obtain ⟨g1, g2, g3⟩ := (buildD_spends (active_lt hI (by rw [hp]; intro h; cases h)) hL hS f1 f2).commit hi _ h1
      refine ⟨g1, g2, ?_⟩
      dsimp only [Act.alloc, Sys.set] at g3 ⊢
      omega
    · cases h
  | build b value =>
    simp only [exec] at h
    split at h
    · rename_i f op hp
      injection h with h
      obtain ⟨r, h1, h⟩ := bind_ok h
      cases h
      obtain ⟨f1, f2⟩ := heldU_fit hI hlen hp
      obtain ⟨g1, g2, g3⟩ := buildU_spends (active_lt hI (by rw [hp]; intro h; cases h)) hL hS f1 f2 hi r h1
      refine ⟨g1, g2, ?_⟩
      dsimp only [Act.alloc, Sys.set] at g3 ⊢
      omega
    · rename_i cur hp
      split at h
      · cases h
      injection h with h
      obtain ⟨r, h1, h⟩ := bind_ok h
      cases h
      obtain ⟨f1, f2⟩ := heldD_fit hI hlen hp
      obtain ⟨g1, g2, g3⟩ := buildD_spends (active_lt hI (by rw [hp]; intro h; cases h)) hL hS f1 f2 hi r h1
      refine ⟨g1, g2, ?_⟩
      dsimp only [Act.alloc, Sys.set] at g3 ⊢
      omega
    · cases h
  | commit b =>
    simp only [exec] at h
    split at h
    · cases h; exact keep rfl (commit_bump _ _)
    · cases h; exact keep rfl (commit_bump _ _)
    · cases h
  | slip b => exact keep (exec_slip_st h) (.refl _)
  | unlock b => exact keep rfl (exec_unlock_quiet h).bump
  | quit b => exact keep (exec_quit_st h) (.refl _)
  | tail b =>
    simp only [exec] at h
    split at h
    all_goals first
      | (injection h with h
         obtain ⟨s1, h1, h⟩ := bind_ok h
         cases h
         exact keep rfl (runTail_bump h1))
      | cases h
  | abort b =>
    simp only [exec] at h
    split at h
    · injection h with h
      obtain ⟨s1, h1, h⟩ := bind_ok h
      cases h
      exact keep rfl (abortU_quiet h1).bump
    · injection h with h
      obtain ⟨s1, h1, h⟩ := bind_ok h
      cases h
      exact keep rfl (abortD_quiet h1).bump
    · cases h
  | finish b =>
    simp only [exec] at h
    split at h
    all_goals first | (cases h; exact keep rfl ⟨rfl, rfl, fun _ _ => rfl⟩) | cases h
  | flush b =>
    simp only [exec] at h
    repeat' split at h
    all_goals cases h
    exact keep rfl (flushStats_bump _ _)
  | block =>
    simp only [exec] at h
    injection h with h
    obtain ⟨s1, h1, h⟩ := bind_ok h
    cases h
    refine keep rfl ?_
    unfold St.blockStep at h1
    repeat' split at h1
    all_goals first | (cases h1; exact ⟨rfl, rfl, fun _ _ => rfl⟩) | cases h1

theorem exec_noBlocks {act : Act} (h : exec env.fetch s act = some (.error .noBlocks)) (hI : Inv env s σ t seen) (hall : env.Allowed s act)
    (hcalm : Calm s act) : maxBlockCount < s.st.baNext + 2 := by
  rcases exec_inv hI hall hcalm h with ⟨s', ev, _, _, h1, _⟩ | ⟨e', h1, h2⟩
  · cases h1
  · injection h1 with h1
    subst h1
    cases act with
    | publish b v =>
      simp only [exec] at h
      split at h
      · injection h with h
        rcases bind_err h with h | ⟨_, _, h⟩
        · exact (publishU_needs _ _ _ _ _ _).2 h
        · cases h
      · injection h with h
        rcases bind_err h with h | ⟨_, _, h⟩
        · have := (publishD_needs _ _ _).2 h
          omega
        · cases h
      · cases h
    | build b v =>
      simp only [exec] at h
      split at h
      · injection h with h
        rcases bind_err h with h | ⟨_, _, h⟩
        · exact buildU_noBlocks h
        · cases h
      · split at h
        · cases h
        injection h with h
        rcases bind_err h with h | ⟨_, _, h⟩
        · have := buildD_noBlocks h
          omega
        · cases h
      · cases h
    | block =>
      simp only [exec] at h
      injection h with h
      rcases bind_err h with h | ⟨_, _, h⟩
      · have := blockStep_noBlocks h
        omega
      · cases h
    | tail a => cases h2.1
    | abort a => cases h2.1
    | _ => exact absurd h2 id

end

/-! ## The nodes taken out of the tree -/

/-- The number of slots `Finalize` still has to recycle. -/
def Tail.size (tl : Tail) : Nat :=
  match tl.free with
  | some (_, n) => n
  | none => 0

/-- The number of slots the operation will recycle. -/
def Proc.owed : Proc → Nat
  | .upd (.tail _ tl) => tl.size
  | .del (.tail _ tl) => tl.size
  | .updB _ _ cm => max cm.ok.size cm.ko.size
  | .delB _ cm => max cm.ok.size cm.ko.size
  | _ => 0

theorem owed_upd {ph : UPh} (h : (Proc.upd ph).tail? = none) : (Proc.upd ph).owed = 0 := by
  cases ph <;> first | rfl | cases h

theorem owed_del {ph : DPh} (h : (Proc.del ph).tail? = none) : (Proc.del ph).owed = 0 := by
  cases ph <;> first | rfl | cases h

theorem buildU_owes {st st' : St} {a : Nat} {op : UpdOp} {fetched : Key} {isMatch : Bool} {value : Word} {cm : Commit} {B : Nat}
    (hB : op.kind.isRoot = false → op.count + op.prefixSlots ≤ B) (h : buildU st a op fetched isMatch value = .ok (cm, st')) :
    max cm.ok.size cm.ko.size ≤ B := by
  unfold buildU at h
  cases hk : op.kind <;> rw [hk] at h <;> simp only at h
  case replaceEmptyRootWithLeaf => cases h; exact Nat.zero_le _
  case replaceLeafRootWithNode =>
    obtain ⟨_, _, h⟩ := bind_ok h
    obtain ⟨_, _, h⟩ := bind_ok h
    cases h; exact Nat.zero_le _
  case rootLeafUpdate =>
    split at h
    · cases h; exact Nat.zero_le _
    · obtain ⟨_, _, h⟩ := bind_ok h
      obtain ⟨_, _, h⟩ := bind_ok h
      obtain ⟨_, _, h⟩ := bind_ok h
      obtain ⟨_, _, h⟩ := bind_ok h
      obtain ⟨_, _, h⟩ := bind_ok h
      cases h; exact Nat.zero_le _
  case nodePrefixMiss =>
    have := hB (by rw [hk]; rfl)
    repeat obtain ⟨_, _, h⟩ := bind_ok h
    cases h
    simp [Tail.size]; omega
  case nodeLeafInsert256 => cases h; exact Nat.zero_le _
  case nodeLeafInsert =>
    have := hB (by rw [hk]; rfl)
    split at h
    · repeat obtain ⟨_, _, h⟩ := bind_ok h
      cases h
      simp [Tail.size]; omega
    · repeat obtain ⟨_, _, h⟩ := bind_ok h
      cases h
      simp [Tail.size]; omega
  all_goals
    split at h
    · cases h; exact Nat.zero_le _
    · repeat obtain ⟨_, _, h⟩ := bind_ok h
      cases h; exact Nat.zero_le _

theorem buildD_owes {st st' : St} {a : Nat} {op : DelOp} {cm : Commit} {B : Nat}
    (hB : op.kind = .replaceNodeWithLeaf ∨ op.kind = .replaceNodeWithNode ∨ op.kind = .deleteLeaf → op.count + op.prefixSlots ≤ B)
    (h : buildD st a op = .ok (cm, st')) : max cm.ok.size cm.ko.size ≤ B := by
  unfold buildD at h
  cases hk : op.kind <;> rw [hk] at h hB <;> simp only at h
  case notFound => cases h
  case deleteRoot => cases h; exact Nat.zero_le _
  case deleteLeaf256 => cases h; exact Nat.zero_le _
  all_goals
    have := hB (by simp)
    try repeat obtain ⟨_, _, h⟩ := bind_ok h
    cases h
    simp [Tail.size]; omega

theorem commit_size (st : St) (cm : Commit) : (st.commit cm).2.1.size ≤ max cm.ok.size cm.ko.size := by
  unfold St.commit
  split
  · exact Nat.le_max_left _ _
  · dsimp only
    split
    · exact Nat.le_max_left _ _
    · exact Nat.le_max_right _ _

section
variable {env : Env} {s s' : Sys} {σ : Spec} {t : T} {seen : Nat → T → Prop} {L : Nat}

theorem heldU_slots (hI : Inv env s σ t seen) (hlen : ∀ k, env.keys k → k.length ≤ L + 1) {a : Nat} {f : Bool} {op : UpdOp}
    (hp : s.proc a = .upd (.held f op)) (hr : op.kind.isRoot = false) : op.count + op.prefixSlots ≤ 256 + prefixSlots L := by
  have h := hI.proc a
  rw [hp] at h
  obtain ⟨_, _, _, h2⟩ := h
  rcases h2 with ⟨h2, _⟩ | ⟨_, q, pfx, big, ch, hu, _⟩
  · rw [hr] at h2; cases h2
  · rw [hu.count, hu.slots]
    have := pfx_len hI hlen hu.at'
    have := cnt_le256 big ch
    have := prefixSlots_mono (show pfx.length ≤ L by omega)
    omega

theorem heldD_slots (hI : Inv env s σ t seen) (hlen : ∀ k, env.keys k → k.length ≤ L + 1) {a : Nat} {cur : DelCur}
    (hp : s.proc a = .del (.held cur))
    (hk : cur.op.kind = .replaceNodeWithLeaf ∨ cur.op.kind = .replaceNodeWithNode ∨ cur.op.kind = .deleteLeaf) :
    cur.op.count + cur.op.prefixSlots ≤ 256 + prefixSlots L := by
  have h := hI.proc a
  rw [hp] at h
  obtain ⟨_, ⟨h1, _⟩ | ⟨h1, q, pfx, ch, hk, _⟩ | ⟨h1, q, pfx, k, k2, lk, lv, pfx2, big2, kids, hm, _, hs, _, _⟩ | ⟨h1, _⟩⟩ := h
  · rw [h1] at hk; simp at hk
  · rw [hk.slots]
    have := pfx_len hI hlen hk.at'
    have := prefixSlots_mono (show pfx.length ≤ L by omega)
    rcases hk.kind with ⟨_, k, lk, lv, _, _, _, h2, _⟩ | ⟨_, k, k2, lk, lv, lk2, lv2, _, _, _, h2, _⟩
    · rw [h2]
      have := cntOf_le (present ch)
      omega
    · omega
  · have h2 := hm.at'.child k2
    rw [ch2_snd] at h2
    have h3 := pfx_len hI hlen h2
    rw [hm.count, hs]
    have := cnt_le256 big2 kids
    have := prefixSlots_mono (show pfx2.length ≤ L by omega)
    omega
  · rw [h1] at hk; simp at hk

theorem exec_owes (hI : Inv env s σ t seen) (hlen : ∀ k, env.keys k → k.length ≤ L + 1) {act : Act} {ev : Ev}
    (h : exec env.fetch s act = some (.ok (s', ev))) (ho : ∀ a, (s.proc a).owed ≤ 256 + prefixSlots L) :
    ∀ a, (s'.proc a).owed ≤ 256 + prefixSlots L := by
  have set : ∀ {a : Nat} {st : St} {p : Proc}, s' = s.set a st p → p.owed ≤ 256 + prefixSlots L →
      ∀ a, (s'.proc a).owed ≤ 256 + prefixSlots L := by
    intro a st p e hp b
    subst e
    by_cases hb : b = a
    · subst hb; simpa [Sys.set] using hp
    · simpa [Sys.set, upd_of_ne _ _ hb] using ho b
  have none : ∀ {a : Nat} {st : St} {p : Proc}, s' = s.set a st p → p.owed = 0 → ∀ a, (s'.proc a).owed ≤ 256 + prefixSlots L :=
    fun e hp => set e (by omega)
  cases act with
  | begin b c =>
    simp only [exec] at h
    repeat' split at h
    all_goals cases h
    exact none rfl rfl
  | arm b =>
    simp only [exec] at h
    split at h
    · rename_i e c hp
      cases h; exact none rfl (by cases c <;> rfl)
    · cases h
  | run b =>
    simp only [exec] at h
    split at h
    case h_3 ph _ hn hp =>
      injection h with h
      obtain ⟨⟨ph', st'⟩, h1, h⟩ := bind_ok h
      cases h
      exact none rfl (owed_upd (notail_upd (stepU_key h1) hn))
    case h_7 ph _ _ hn hp =>
      injection h with h
      obtain ⟨⟨ph', st'⟩, h1, h⟩ := bind_ok h
      cases h
      exact none rfl (owed_del (notail_del (stepD_key h1) hn))
    case h_9 ph _ hp =>
      injection h with h
      obtain ⟨ph', h1, h⟩ := bind_ok h
      cases h
      exact none rfl rfl
    all_goals cases h
  | publish b value =>
    simp only [exec] at h
    split at h
    · rename_i f op hp
      injection h with h
      obtain ⟨⟨_, _, st1⟩, h1, h⟩ := bind_ok h
      cases h
      rw [publishU_eq] at h1
      obtain ⟨⟨cm, st2⟩, h1, h⟩ := bind_ok h1
      have := buildU_owes (heldU_slots hI hlen hp) h1
      have h3 := commit_size st2 cm
      cases hc : st2.commit cm
      simp only [pure, Except.pure, hc] at h h3
      cases h
      exact set rfl (Nat.le_trans h3 this)
    · rename_i cur hp
      injection h with h
      obtain ⟨⟨_, _, st1⟩, h1, h⟩ := bind_ok h
      cases h
      by_cases hk : cur.op.kind = .notFound
      · unfold publishD at h1
        rw [hk] at h1
        cases h1
        exact none rfl rfl
      rw [publishD_eq _ _ _ hk] at h1
      obtain ⟨⟨cm, st2⟩, h1, h⟩ := bind_ok h1
      have := buildD_owes (heldD_slots hI hlen hp) h1
      have h3 := commit_size st2 cm
      cases hc : st2.commit cm
      simp only [pure, Except.pure, hc] at h h3
      cases h
      exact set rfl (Nat.le_trans h3 this)
    · cases h
  | build b value =>
    simp only [exec] at h
    split at h
    · rename_i f op hp
      injection h with h
      obtain ⟨⟨cm, st1⟩, h1, h⟩ := bind_ok h
      cases h
      exact set rfl (buildU_owes (heldU_slots hI hlen hp) h1)
    · rename_i cur hp
      split at h
      · cases h
      injection h with h
      obtain ⟨⟨cm, st1⟩, h1, h⟩ := bind_ok h
      cases h
      exact set rfl (buildD_owes (heldD_slots hI hlen hp) h1)
    · cases h
  | commit b =>
    simp only [exec] at h
    split at h
    · rename_i op value cm hp
      have := ho b
      rw [hp] at this
      cases h; exact set rfl (Nat.le_trans (commit_size _ _) this)
    · rename_i cur cm hp
      have := ho b
      rw [hp] at this
      cases h; exact set rfl (Nat.le_trans (commit_size _ _) this)
    · cases h
  | slip b =>
    obtain ⟨rfl, _, ⟨ph, ph', hp, hs, rfl⟩ | ⟨ph, ph', hp, hs, rfl⟩⟩ := exec_slip_ok h
    · refine none rfl (owed_upd ?_)
      unfold slipU at hs
      repeat' split at hs
      all_goals first | (cases hs; rfl) | (cases hs; done) | skip
      all_goals
        injection hs with hs
        obtain ⟨_, _, hs⟩ := bind_ok hs
        try split at hs
        all_goals first | (cases hs; rfl) | cases hs
    · refine none rfl (owed_del ?_)
      unfold slipD at hs
      repeat' split at hs
      all_goals first | (cases hs; rfl) | (cases hs; done) | skip
      all_goals
        injection hs with hs
        obtain ⟨_, _, hs⟩ := bind_ok hs
        try split at hs
        all_goals first | (cases hs; rfl) | cases hs
  | unlock b =>
    obtain ⟨_, ⟨r, tl, u, st', hp, hs, rfl⟩ | ⟨r, tl, u, st', hp, hs, rfl⟩⟩ := exec_unlock_ok h <;>
      (have := ho b; rw [hp] at this; exact set rfl this)
  | quit b =>
    obtain ⟨_, ⟨f, op, hp, rfl⟩ | ⟨cur, hp, rfl⟩⟩ := exec_quit_ok h <;> exact none rfl rfl
  | tail b =>
    simp only [exec] at h
    split at h
    all_goals first
      | (injection h with h
         obtain ⟨s1, h1, h⟩ := bind_ok h
         cases h
         exact none rfl rfl)
      | cases h
  | abort b =>
    simp only [exec] at h
    split at h
    all_goals first
      | (injection h with h
         obtain ⟨s1, h1, h⟩ := bind_ok h
         cases h
         exact none rfl rfl)
      | cases h
  | finish b =>
    simp only [exec] at h
    split at h
    all_goals first | (cases h; exact none rfl rfl) | cases h
  | flush b =>
    simp only [exec] at h
    repeat' split at h
    all_goals cases h
    exact none rfl rfl
  | block =>
    simp only [exec] at h
    injection h with h
    obtain ⟨s1, h1, h⟩ := bind_ok h
    cases h
    exact ho

end

end Radix
