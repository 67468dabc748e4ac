import Verif.Sys.Facts
import Verif.SerialCut
import Verif.Demo
/-!
# Properties C29, C30, C31: saving and loading
-/
set_option autoImplicit false
namespace Radix

/-! ## Statements -/

/-- Sizes that a 64-bit machine can represent. -/
structure Machine (st : St) : Prop where
  live : st.live < 9223372036854775808
  epoch : st.epoch ≤ maxUint64
  nalloc : st.nalloc * 8 ≤ maxAlloc
  lists : ∀ a, a < st.nalloc → ∀ i, i < recyclerLen → ((st.allocs a).recycler i).length * 16 ≤ maxAlloc

/-- What `WriteState` may write for a tree in state `st` on which no operation is running, if no write fails.  The number of blocks is read
for the header and later again; in between, the block goroutine may have published another block (`st'`).  The blocks may be
written in any order. -/
def Written (enc : Bytes → Bytes) (empty : Nat → Bool) (st : St) (data : Bytes) : Prop :=
  ∃ st' order, (st' = st ∨ st.blockStep = .ok st') ∧ List.Perm order (List.range st'.nextFreeBlock) ∧
    data = headerBytes st st.nextFreeBlock ++ (List.range st.nalloc).flatMap (allocatorBytes st empty) ++ order.flatMap (blockJob enc st'.mem)

/-- Two trees have the same keys and values, allocator positions and free lists. -/
structure SameTree (fetch : Word → Key) (st st' : St) : Prop where
  contents : ∀ key, key ≠ [] → content fetch st' key = content fetch st key
  nalloc : st'.nalloc = st.nalloc
  position : ∀ a, a < st.nalloc → (st'.allocs a).nextFree = (st.allocs a).nextFree ∧ (st'.allocs a).block = (st.allocs a).block ∧
    (st'.allocs a).offset = (st.allocs a).offset
  free : ∀ a, a < st.nalloc → ∀ i, i < recyclerLen →
    ((st'.allocs a).recycler i).map (·.n) = ((st.allocs a).recycler i).map (·.n)

/-- C29, in full: it does not hold, see `C29_does_not_hold`. -/
def C29_statement : Prop :=
  ∀ (env : Env) (s : Sys) (σ : Spec), Run env Calm s σ → (∀ a, s.proc a = .idle) → Machine s.st →
    ∀ (enc : Bytes → Bytes) (dc : Bytes → Option Bytes), Codec enc dc → ∀ empty data, Written enc empty s.st data →
      ∃ L st', loadState dc data = .ok L ∧ L.start = some st' ∧ SameTree env.fetch s.st st'

/-- C30, in full: it does not hold, see `C30_does_not_hold`. -/
def C30_statement : Prop :=
  ∀ (env : Env) (s : Sys) (σ : Spec), Run env Calm s σ → (∀ a, s.proc a = .idle) → Machine s.st →
    ∀ (enc : Bytes → Bytes) (dc : Bytes → Option Bytes), Codec enc dc → ∀ empty data, Written enc empty s.st data →
      ∀ L st', loadState dc data = .ok L → L.start = some st' → st'.len = s.st.len

/-- C31, in full: it does not hold, see `C31_does_not_hold`. -/
def C31_statement : Prop :=
  ∀ (enc : Bytes → Bytes) (dc : Bytes → Option Bytes), Codec enc dc →
    (∀ (env : Env) (s : Sys) (σ : Spec), Run env Calm s σ → (∀ a, s.proc a = .idle) → Machine s.st →
      ∀ empty data, Written enc empty s.st data → ∀ p, p <+: data → p ≠ data → loadState dc p = .error .err) ∧
    ∀ input, loadState dc input ≠ .error .panic

/-! ## Loading what was written -/

theorem Inv.fits {env : Env} {s : Sys} {σ : Spec} {t : T} {seen : Nat → T → Prop} (hI : Inv env s σ t seen) (hm : Machine s.st) : Fits s.st := by
  have hbs : blockSize = 2097152 := rfl
  have hbl : blockSlots = 262144 := rfl
  have hbc : maxBlockCount = 65536 := rfl
  have hmax : maxUint64 = 18446744073709551615 := rfl
  have hbn := hI.mem.core.bn
  refine ⟨hm.live, hm.epoch, hm.nalloc, fun a ha => ?_⟩
  have hok := hI.mem.core.ok a ha
  have hb : (s.st.allocs a).block ≤ maxBlockCount ∧ (s.st.allocs a).offset ≤ 8 + maxBlockCount * blockSize ∧ (s.st.allocs a).nextFree ≤ blockSize := by
    rcases hok.bump with ⟨h1, h2, h3⟩ | ⟨h1, h2, h3⟩
    · omega
    · refine ⟨by omega, ?_, by omega⟩
      rw [h2]
      split
      · omega
      · have := Nat.mul_le_mul_right blockSize (show (s.st.allocs a).block ≤ maxBlockCount by omega)
        omega
  obtain ⟨h1, h2, h3⟩ := hb
  rw [hbc, hbs] at h2
  refine ⟨by omega, by omega, by omega, fun i hi => ⟨hm.lists a ha i hi, fun it hit => ?_⟩⟩
  obtain ⟨_, h4, _⟩ := hok.items i it hi hit
  rw [Nat.div_lt_iff_lt_mul (by omega)] at h4
  have := Nat.mul_le_mul_right blockSlots hbn
  rw [hbc, hbl] at this
  rw [hbl] at h4
  omega

theorem flatMap_congr_mem {α : Type} {f g : α → Bytes} : ∀ l : List α, (∀ a ∈ l, f a = g a) → l.flatMap f = l.flatMap g := by
  intro l
  induction l with
  | nil => intro _; rfl
  | cons a l ih =>
    intro h
    rw [List.flatMap_cons, List.flatMap_cons, h a List.mem_cons_self, ih fun b hb => h b (List.mem_cons_of_mem _ hb)]

/-- If the number of blocks is published, the block goroutine does not matter. -/
theorem Written.bytes {enc : Bytes → Bytes} {empty : Nat → Bool} {st : St} {data : Bytes} (h : Written enc empty st data)
    (hr : st.baReady = true ∨ st.baSent = false) :
    ∃ order, List.Perm order (List.range st.nextFreeBlock) ∧ data = stateBytes enc empty st st.nextFreeBlock order := by
  obtain ⟨st', order, h1, h2, rfl⟩ := h
  have key : st'.nextFreeBlock = st.nextFreeBlock ∧ ∀ b, b < st.nextFreeBlock → blockBytes st'.mem b = blockBytes st.mem b := by
    rw [nextFreeBlock_of hr]
    rcases h1 with rfl | h1
    · exact ⟨nextFreeBlock_of hr, fun _ _ => rfl⟩
    · unfold St.blockStep at h1
      split at h1
      · cases h1; exact ⟨nextFreeBlock_of hr, fun _ _ => rfl⟩
      · split at h1
        · cases h1
          refine ⟨by simp [St.nextFreeBlock], fun b hb => ?_⟩
          unfold blockBytes
          refine flatMap_congr_mem _ fun i hi => ?_
          have hi' : i < blockSlots := List.mem_range.1 hi
          have hd : (b * blockSlots + i) / blockSlots = b := by
            rw [Nat.mul_comm, Nat.mul_add_div (by decide), Nat.div_eq_of_lt hi', Nat.add_zero]
          simp only
          rw [if_neg (by rw [hd]; omega)]
        · cases h1
  rw [key.1] at h2
  refine ⟨order, h2, ?_⟩
  unfold stateBytes
  rw [flatMap_congr_mem (f := blockJob enc st'.mem) (g := blockJob enc st.mem) order]
  intro b hb
  have hb' : b < st.nextFreeBlock := List.mem_range.1 (h2.mem_iff.1 hb)
  unfold blockJob
  rw [key.2 b hb']

/-- What was written is loaded as `St.restore`. -/
theorem Written.load {env : Env} {s : Sys} {σ : Spec} {t : T} {seen : Nat → T → Prop} (hI : Inv env s σ t seen) (hm : Machine s.st)
    (hr : s.st.baReady = true ∨ s.st.baSent = false) {enc : Bytes → Bytes} {dc : Bytes → Option Bytes} (hc : Codec enc dc)
    {empty : Nat → Bool} {data : Bytes} (h : Written enc empty s.st data) :
    ∃ L, loadState dc data = .ok L ∧ L.start = some s.st.restore := by
  obtain ⟨order, h1, rfl⟩ := h.bytes hr
  have hbn := hI.mem.core.nb
  have hle := s.st.baNext_le
  have hmax : maxUint64 = 18446744073709551615 := rfl
  have hbc : maxBlockCount = 65536 := rfl
  have hn := nextFreeBlock_of hr
  have ho : ∀ b, b ∈ order ↔ b < s.st.nextFreeBlock := fun b => by rw [h1.mem_iff, List.mem_range]
  refine ⟨_, loadState_bytes hc (hI.fits hm) empty (by omega) (fun b hb => ?_), start_restore ho⟩
  have := (ho b).1 hb
  omega

/-! ## Flushing the counters -/

/-- The trees differ only in their counters. -/
structure CountersOnly (st st' : St) : Prop where
  mem : st'.mem = st.mem
  root : st'.root = st.root
  baNext : st'.baNext = st.baNext
  baReady : st'.baReady = st.baReady
  baSent : st'.baSent = st.baSent
  nalloc : st'.nalloc = st.nalloc
  len : st'.len = st.len

theorem len_total (st : St) : st.len = st.live + ((List.range st.nalloc).map fun a => (st.allocs a).itemCounter).sum := by
  have : ∀ (l : List Nat) (i : Int), l.foldl (fun count a => count + (st.allocs a).itemCounter) i =
      i + (l.map fun a => (st.allocs a).itemCounter).sum := by
    intro l
    induction l with
    | nil => intro i; simp
    | cons a l ih => intro i; simp only [List.foldl_cons, ih, List.map_cons, List.sum_cons]; omega
  exact this _ _

theorem sum_upd_counter (f : Nat → Int) (a : Nat) : ∀ n, a < n →
    ((List.range n).map (upd f a 0)).sum + f a = ((List.range n).map f).sum := by
  intro n
  induction n with
  | zero => intro h; omega
  | succ n ih =>
    intro h
    rw [List.range_succ, List.map_append, List.map_append, List.sum_append, List.sum_append]
    simp only [List.map_cons, List.map_nil, List.sum_cons, List.sum_nil]
    by_cases e : n = a
    · subst e
      have h1 : (List.range n).map (upd f n 0) = (List.range n).map f := by
        refine List.map_congr_left fun x hx => ?_
        have := List.mem_range.1 hx
        exact upd_of_ne _ _ (by omega)
      rw [h1, upd_same]
      omega
    · rw [upd_of_ne _ _ e]
      have := ih (by omega)
      omega

theorem flushStats_counters {st : St} {a : Nat} (ha : a < st.nalloc) : CountersOnly st (st.flushStats a) := by
  refine ⟨rfl, rfl, rfl, rfl, rfl, rfl, ?_⟩
  rw [len_total, len_total]
  have h1 : (fun b => ((st.flushStats a).allocs b).itemCounter) = upd (fun b => (st.allocs b).itemCounter) a 0 := by
    funext b
    by_cases e : b = a
    · subst e; simp [St.flushStats]
    · simp [St.flushStats, upd_of_ne _ _ e]
  have h2 := sum_upd_counter (fun b => (st.allocs b).itemCounter) a st.nalloc ha
  rw [h1]
  show st.live + (st.allocs a).itemCounter + ((List.range st.nalloc).map _).sum = _
  omega

/-- The counters can be flushed without changing anything else. -/
theorem Run.flushAll {env : Env} {s : Sys} {σ : Spec} (h : Run env Calm s σ) (hid : ∀ a, s.proc a = .idle) :
    ∀ k, k ≤ s.st.nalloc → ∃ s', Run env Calm s' σ ∧ (∀ a, s'.proc a = .idle) ∧ CountersOnly s.st s'.st ∧
      (∀ a, a < k → (s'.st.allocs a).itemCounter = 0) := by
  intro k
  induction k with
  | zero => exact fun _ => ⟨s, h, hid, ⟨rfl, rfl, rfl, rfl, rfl, rfl, rfl⟩, fun _ h => by omega⟩
  | succ k ih =>
    intro hk
    obtain ⟨s', h1, h2, h3, h4⟩ := ih (by omega)
    have hk' : k < s'.st.nalloc := by rw [h3.nalloc]; omega
    have hf := flushStats_counters hk'
    refine ⟨s'.set k (s'.st.flushStats k) .idle, Run.step (act := .flush k) (ev := .none) h1 trivial trivial ?_, ?_, ?_, ?_⟩
    · simp only [exec, h2 k, if_pos hk']
    · intro a
      simp only [Sys.set]
      by_cases e : a = k
      · subst e; simp
      · rw [upd_of_ne _ _ e]; exact h2 a
    · exact ⟨hf.mem.trans h3.mem, hf.root.trans h3.root, hf.baNext.trans h3.baNext, hf.baReady.trans h3.baReady, hf.baSent.trans h3.baSent,
        hf.nalloc.trans h3.nalloc, hf.len.trans h3.len⟩
    · intro a ha
      simp only [Sys.set, St.flushStats]
      by_cases e : a = k
      · subst e; simp
      · rw [upd_of_ne _ _ e]; exact h4 a (by omega)

theorem Run.flushed {env : Env} {s : Sys} {σ : Spec} (h : Run env Calm s σ) (hid : ∀ a, s.proc a = .idle)
    (hr : s.st.baReady = true ∨ s.st.baSent = false) : ∃ s', Run env Calm s' σ ∧ s'.Savable ∧ CountersOnly s.st s'.st := by
  obtain ⟨s', h1, h2, h3, h4⟩ := h.flushAll hid s.st.nalloc (Nat.le_refl _)
  exact ⟨s', h1, ⟨h2, by rw [h3.baReady, h3.baSent]; exact hr, fun a ha => h4 a (by rw [← h3.nalloc]; exact ha)⟩, h3⟩

theorem CountersOnly.restore {st st' : St} (h : CountersOnly st st') :
    st'.restore.mem = st.restore.mem ∧ st'.restore.root = st.restore.root ∧ st'.restore.nblocks = st.restore.nblocks := by
  have hn : st'.nextFreeBlock = st.nextFreeBlock := by unfold St.nextFreeBlock; rw [h.baNext, h.baReady, h.baSent]
  refine ⟨?_, h.root, ?_⟩
  · simp only [St.restore]
    rw [hn, h.mem]
  · unfold St.nblocks
    simp only [St.restore]
    rw [hn]
    rfl

/-- The loaded tree has the contents of the tree saved. -/
theorem restore_content {env : Env} {s : Sys} {σ : Spec} (h : Run env Calm s σ) (hid : ∀ a, s.proc a = .idle)
    (hr : s.st.baReady = true ∨ s.st.baSent = false) {key : Key} (hk : key ≠ []) : content env.fetch s.st.restore key = σ.map key := by
  obtain ⟨s', h1, h2, h3⟩ := h.flushed hid hr
  obtain ⟨t, seen, hI⟩ := (Run.reload h1 h2).inv
  have e1 := hI.contents hk
  obtain ⟨g1, g2, g3⟩ := h3.restore
  have e2 := search_congr g1 g2 g3 key
  rw [← e1]
  unfold content
  rw [e2]

theorem restore_sameTree {env : Env} {s : Sys} {σ : Spec} (h : Run env Calm s σ) (hid : ∀ a, s.proc a = .idle)
    (hr : s.st.baReady = true ∨ s.st.baSent = false) : SameTree env.fetch s.st s.st.restore := by
  obtain ⟨t, seen, hI⟩ := h.inv
  refine ⟨fun key hk => (restore_content h hid hr hk).trans (hI.contents hk).symm, rfl, fun a ha => ?_, fun a ha i hi => ?_⟩
  · simp [St.restore, ha, Alloc.restore]
  · simp [St.restore, ha, Alloc.restore, hi]

/-! ## C29 -/

/-- C29, if the block goroutine has published the number of the block after the last one in use (`baReady`), or no block was handed out
since the tree was created or loaded (`¬ baSent`).  What is missing: trees saved while the goroutine is behind, for which the property fails.
The contents are moreover those of the history, and by `Run.reload` the further history continues with the same map. -/
theorem C29_state_round_trip_partial {env : Env} {s : Sys} {σ : Spec} (h : Run env Calm s σ) (hid : ∀ a, s.proc a = .idle)
    (hr : s.st.baReady = true ∨ s.st.baSent = false) (hm : Machine s.st) {enc : Bytes → Bytes} {dc : Bytes → Option Bytes} (hc : Codec enc dc)
    {empty : Nat → Bool} {data : Bytes} (hw : Written enc empty s.st data) :
    ∃ L st', loadState dc data = .ok L ∧ L.start = some st' ∧ SameTree env.fetch s.st st' ∧
      ∀ key, key ≠ [] → content env.fetch st' key = σ.map key := by
  obtain ⟨t, seen, hI⟩ := h.inv
  obtain ⟨L, h1, h2⟩ := hw.load hI hm hr hc
  exact ⟨L, _, h1, h2, restore_sameTree h hid hr, fun key hk => restore_content h hid hr hk⟩

/-- No compression. -/
theorem Codec.id : Codec (fun x => x) some :=
  ⟨fun _ _ => rfl, fun x h => by rw [h]; decide⟩

/-- The restrictions of the theorems, for the examples. -/
def machineB (s : Sys) : Bool :=
  decide (s.st.live < 9223372036854775808) && decide (s.st.epoch ≤ maxUint64) && decide (s.st.nalloc * 8 ≤ maxAlloc) &&
    (List.range s.st.nalloc).all (fun a => (s.proc a).isIdle) &&
    (List.range s.st.nalloc).all fun a => (List.range recyclerLen).all fun i => decide (((s.st.allocs a).recycler i).length * 16 ≤ maxAlloc)

theorem machineB_sound {env : Env} {s : Sys} {σ : Spec} (h : Run env Calm s σ) (hb : machineB s = true) :
    (∀ a, s.proc a = .idle) ∧ Machine s.st := by
  obtain ⟨t, seen, hI⟩ := h.inv
  simp only [machineB, Bool.and_eq_true, decide_eq_true_eq, List.all_eq_true, List.mem_range] at hb
  obtain ⟨⟨⟨⟨h1, h2⟩, h3⟩, h4⟩, h5⟩ := hb
  refine ⟨fun a => ?_, h1, h2, h3, h5⟩
  by_cases ha : a < s.st.nalloc
  · exact Proc.idle_of (h4 a ha)
  · exact hI.mem.off a (by omega)

/-- C29 fails: "apple" and "april" are stored, and the tree is saved before the block goroutine has published that a block is in use.
No block is written, and the loaded tree does not contain "apple". -/
theorem C29_does_not_hold : ¬ C29_statement := by
  intro hC
  obtain ⟨s, σ, hrun, hck⟩ := Run.ofCheck (l := demoKeys) (h := demoKeys_good) (G := Calm) (n := 2) calm_sound
    (acts := demoActs.take 13) (check := fun s _ => machineB s && (s.st.nextFreeBlock == 0) &&
      match (Loaded.withBlocks s.st 0 []).start with
      | some st' => content demoEnv.fetch st' [97, 112, 112, 108, 101] != content demoEnv.fetch s.st [97, 112, 112, 108, 101]
      | none => false) (by decide +kernel)
  simp only [Bool.and_eq_true, beq_iff_eq] at hck
  obtain ⟨⟨h1, h2⟩, h3⟩ := hck
  obtain ⟨hid, hm⟩ := machineB_sound hrun h1
  obtain ⟨t, seen, hI⟩ := hrun.inv
  have hw : Written (fun x => x) (fun _ => false) s.st (stateBytes (fun x => x) (fun _ => false) s.st 0 []) :=
    ⟨s.st, [], .inl rfl, by rw [h2]; exact List.Perm.refl _, by rw [h2]; rfl⟩
  obtain ⟨L, st', g1, g2, g3⟩ := hC demoEnv s σ hrun hid hm _ _ Codec.id _ _ hw
  rw [loadState_bytes Codec.id (hI.fits hm) _ (by decide) (fun b hb => by cases hb)] at g1
  cases g1
  rw [show ([] : List Nat).reverse = [] from rfl] at g2
  rw [g2] at h3
  simp only [bne_iff_ne, ne_eq] at h3
  exact h3 (g3.contents _ (by decide))

/-- The hypotheses of `C29_state_round_trip_partial` hold for the same tree once the goroutine has published; the block is written
without compression. -/
example : ∃ s σ, Run demoEnv Calm s σ ∧ (∀ a, s.proc a = .idle) ∧ s.st.baReady = true ∧ Machine s.st ∧
    σ.map [97, 112, 112, 108, 101] = some 0 ∧
    Written (fun x => x) (fun _ => false) s.st (stateBytes (fun x => x) (fun _ => false) s.st 1 [0]) := by
  obtain ⟨s, σ, hrun, hck⟩ := Run.ofCheck (l := demoKeys) (h := demoKeys_good) (G := Calm) (n := 2) calm_sound
    (acts := demoActs.take 13 ++ [.block]) (check := fun s σ => machineB s && (s.st.nextFreeBlock == 1) && s.st.baReady &&
      (σ.map [97, 112, 112, 108, 101] == some 0)) (by decide +kernel)
  simp only [Bool.and_eq_true, beq_iff_eq] at hck
  obtain ⟨⟨⟨h1, h2⟩, h3⟩, h4⟩ := hck
  obtain ⟨hid, hm⟩ := machineB_sound hrun h1
  exact ⟨s, σ, hrun, hid, h3, hm, h4, s.st, [0], .inl rfl, by rw [h2]; exact List.Perm.refl _, by rw [h2]; rfl⟩

/-! ## C30 -/

/-- The length of every loaded tree: what was flushed, or 0 if that is negative. -/
theorem Written.len {env : Env} {s : Sys} {σ : Spec} {t : T} {seen : Nat → T → Prop} (hI : Inv env s σ t seen) (hm : Machine s.st)
    {enc : Bytes → Bytes} {dc : Bytes → Option Bytes} (hc : Codec enc dc) {empty : Nat → Bool} {data : Bytes} (h : Written enc empty s.st data)
    {L : Loaded} {st' : St} (h1 : loadState dc data = .ok L) (h2 : L.start = some st') : st'.len = if s.st.live < 0 then 0 else s.st.live := by
  obtain ⟨sb, order, g1, g2, rfl⟩ := h
  have hbc : maxBlockCount = 65536 := rfl
  have hmax : maxUint64 = 18446744073709551615 := rfl
  have hnf : ∀ st : St, st.nextFreeBlock ≤ st.baNext := by intro st; unfold St.nextFreeBlock; split <;> omega
  have hle := s.st.baNext_le
  have hbn := hI.mem.core.nb
  have hsb : sb.baNext = s.st.baNext := by
    rcases g1 with rfl | g1
    · rfl
    · unfold St.blockStep at g1
      split at g1
      · cases g1; rfl
      · split at g1
        · cases g1; rfl
        · cases g1
  have hfit := hI.fits hm
  have hfit' : Fits { s.st with mem := sb.mem } := ⟨hfit.live, hfit.epoch, hfit.nalloc, hfit.alloc⟩
  have e := loadState_bytes hc hfit' empty (next := s.st.nextFreeBlock) (by have := hnf s.st; omega) (order := order) (fun b hb => by
    have := List.mem_range.1 (g2.mem_iff.1 hb)
    have := hnf sb
    omega)
  have e1 : (.ok L : Except LoadErr Loaded) = .ok (.withBlocks { s.st with mem := sb.mem } s.st.nextFreeBlock order.reverse) := h1.symm.trans e
  injection e1 with e1
  subst e1
  unfold Loaded.start at h2
  simp only [Loaded.withBlocks, Loaded.withAllocs, Loaded.header] at h2
  split at h2
  · injection h2 with h2
    subst h2
    rw [len_total]
    simp only
    rw [sum_zero_int fun a _ => ?_]
    · omega
    · split <;> rfl
  · cases h2

/-- C30, if the counters of the allocators were flushed.  What is missing: unflushed counters, which are not written. -/
theorem C30_len_partial {env : Env} {s : Sys} {σ : Spec} (h : Run env Calm s σ) (hid : ∀ a, s.proc a = .idle) (hm : Machine s.st)
    (hf : ∀ a, a < s.st.nalloc → (s.st.allocs a).itemCounter = 0) {enc : Bytes → Bytes} {dc : Bytes → Option Bytes} (hc : Codec enc dc)
    {empty : Nat → Bool} {data : Bytes} (hw : Written enc empty s.st data) {L : Loaded} {st' : St} (h1 : loadState dc data = .ok L)
    (h2 : L.start = some st') : st'.len = s.st.len := by
  obtain ⟨t, seen, hI⟩ := h.inv
  rw [hw.len hI hm hc h1 h2, len_total, sum_zero_int fun a ha => hf a (List.mem_range.1 ha)]
  have hitems0 : s.items = 0 := by
    unfold Sys.items
    exact sum_zero_int (fun a _ => by rw [hid a]; rfl)
  obtain ⟨l, _, _, h3⟩ := hI.mem.count
  have e1 : s.st.total = s.st.live := by
    unfold St.total
    rw [sum_zero_int fun a ha => hf a (List.mem_range.1 ha)]
    omega
  rw [e1, hitems0] at h3
  rw [if_neg (by omega)]
  omega

/-- C30: exactly the unflushed part of `Len` is lost. -/
theorem C30_what_is_lost {env : Env} {s : Sys} {σ : Spec} (h : Run env Calm s σ) (hm : Machine s.st) (hl : 0 ≤ s.st.live)
    {enc : Bytes → Bytes} {dc : Bytes → Option Bytes} (hc : Codec enc dc) {empty : Nat → Bool} {data : Bytes} (hw : Written enc empty s.st data)
    {L : Loaded} {st' : St} (h1 : loadState dc data = .ok L) (h2 : L.start = some st') :
    s.st.len - st'.len = ((List.range s.st.nalloc).map fun a => (s.st.allocs a).itemCounter).sum := by
  obtain ⟨t, seen, hI⟩ := h.inv
  rw [hw.len hI hm hc h1 h2, len_total, if_neg (by omega)]
  omega

/-- C30 fails: two keys are stored, `Len` is 2, and 0 after saving and loading. -/
theorem C30_does_not_hold : ¬ C30_statement := by
  intro hC
  obtain ⟨s, σ, hrun, hck⟩ := Run.ofCheck (l := demoKeys) (h := demoKeys_good) (G := Calm) (n := 2) calm_sound
    (acts := demoActs.take 13 ++ [.block]) (check := fun s _ => machineB s && (s.st.nextFreeBlock == 1) && s.st.baReady && (s.st.len == 2) && (s.st.live == 0))
    (by decide +kernel)
  simp only [Bool.and_eq_true, beq_iff_eq] at hck
  obtain ⟨⟨⟨⟨h1, h2⟩, h3⟩, h4⟩, h5⟩ := hck
  obtain ⟨hid, hm⟩ := machineB_sound hrun h1
  obtain ⟨t, seen, hI⟩ := hrun.inv
  have hw : Written (fun x => x) (fun _ => false) s.st (stateBytes (fun x => x) (fun _ => false) s.st 1 [0]) :=
    ⟨s.st, [0], .inl rfl, by rw [h2]; exact List.Perm.refl _, by rw [h2]; rfl⟩
  obtain ⟨L, g1, g2⟩ := hw.load hI hm (.inl h3) Codec.id
  have g3 := hC demoEnv s σ hrun hid hm _ _ Codec.id _ _ hw L _ g1 g2
  rw [hw.len hI hm Codec.id g1 g2, h4, h5] at g3
  exact absurd g3 (by decide)

/-- The hypotheses of `C30_len_partial` hold after `FlushStats`. -/
example : ∃ s σ, Run demoEnv Calm s σ ∧ (∀ a, s.proc a = .idle) ∧ Machine s.st ∧
    (∀ a, a < s.st.nalloc → (s.st.allocs a).itemCounter = 0) ∧ s.st.len = 2 ∧
    ∃ data, Written (fun x => x) (fun _ => false) s.st data := by
  obtain ⟨s, σ, hrun, hck⟩ := Run.ofCheck (l := demoKeys) (h := demoKeys_good) (G := Calm) (n := 2) calm_sound
    (acts := demoActs.take 13 ++ [.block, .flush 0, .flush 1]) (check := fun s _ => machineB s &&
      (List.range s.st.nalloc).all (fun a => (s.st.allocs a).itemCounter == 0) && (s.st.len == 2)) (by decide +kernel)
  simp only [Bool.and_eq_true, beq_iff_eq, List.all_eq_true, List.mem_range] at hck
  obtain ⟨⟨h1, h2⟩, h3⟩ := hck
  obtain ⟨hid, hm⟩ := machineB_sound hrun h1
  exact ⟨s, σ, hrun, hid, hm, h2, h3, _, s.st, _, .inl rfl, List.Perm.refl _, rfl⟩

/-! ## C31 -/

/-- C31, for truncated data of a tree that uses at least one block and whose number of blocks is published: loading the beginning of the
data never panics; it returns an error, or it returns a tree that can not be used (`start = none`: blocks or the epoch manager are missing), or
the data was complete in substance and the tree is the one written.  What is missing: an error is not always returned, and other malformed
data can make loading panic. -/
theorem C31_truncated_partial {env : Env} {s : Sys} {σ : Spec} (h : Run env Calm s σ) (hid : ∀ a, s.proc a = .idle)
    (hr : s.st.baReady = true ∨ s.st.baSent = false) (hb : 0 < s.st.baNext) (hm : Machine s.st) {enc : Bytes → Bytes} {dc : Bytes → Option Bytes}
    (hc : Codec enc dc) {empty : Nat → Bool} {data : Bytes} (hw : Written enc empty s.st data) {p : Bytes} (hp : p <+: data) :
    loadState dc p = .error .err ∨
    ∃ L, loadState dc p = .ok L ∧ (L.start = none ∨ ∃ st', L.start = some st' ∧ SameTree env.fetch s.st st') := by
  obtain ⟨t, seen, hI⟩ := h.inv
  obtain ⟨order, h1, rfl⟩ := hw.bytes hr
  have hbn := hI.mem.core.nb
  have hle := s.st.baNext_le
  have hmax : maxUint64 = 18446744073709551615 := rfl
  have hbc : maxBlockCount = 65536 := rfl
  have hn := nextFreeBlock_of hr
  have ho : ∀ b, b ∈ order ↔ b < s.st.nextFreeBlock := fun b => by rw [h1.mem_iff, List.mem_range]
  rcases loadState_cut hc (hI.fits hm) empty (by omega) (fun b hb => by have := (ho b).1 hb; omega) hp with h2 | ⟨L, h2, h3⟩
  · exact .inl h2
  · refine .inr ⟨L, h2, ?_⟩
    have miss : ∀ b, b < L.next → L.blocks b = none → L.start = none := by
      intro b hb1 hb2
      unfold Loaded.start
      split
      · rfl
      · rw [if_neg]
        intro hall
        have := List.all_eq_true.1 hall b (List.mem_range.2 hb1)
        rw [hb2] at this
        exact absurd this (by simp)
    rcases h3 with h3 | ⟨h3, _, h4, _⟩ | ⟨done, rest, h3, h4⟩
    · left
      unfold Loaded.start
      rw [h3]
    · exact .inl (miss 0 (by omega) (by rw [h4]))
    · cases rest with
      | nil =>
        right
        rw [List.append_nil] at h3
        subst h3
        subst h4
        exact ⟨_, start_restore ho, restore_sameTree h hid hr⟩
      | cons b rest =>
        left
        subst h4
        have hnd : order.Nodup := h1.nodup_iff.2 List.nodup_range
        rw [h3] at hnd
        have hb1 : b ∉ done := fun hb => by
          have := List.nodup_append.1 hnd
          exact this.2.2 b hb b List.mem_cons_self rfl
        have hb2 : b < s.st.nextFreeBlock := (ho b).1 (by rw [h3]; simp)
        exact miss b hb2 (by simp [Loaded.withBlocks, hb1])

/-- C31: a line without a space makes loading panic. -/
theorem C31_panics (dc : Bytes → Option Bytes) : loadState dc [10] = .error .panic := rfl

/-- C31: the empty data is accepted. -/
theorem C31_accepts_nothing (dc : Bytes → Option Bytes) : loadState dc [] = .ok {} := rfl

/-- The header up to the number of allocators. -/
def headerStart (st : St) (next : Nat) : Bytes :=
  (txt ['o', 'b', 'j', 'e', 'c', 't', 's', ' '] ++ decInt st.live ++ [nl]) ++
  (txt ['b', 'l', 'o', 'c', 'k', 's', 'i', 'z', 'e', ' '] ++ dec blockSize ++ [nl]) ++
  (txt ['a', 'l', 'l', 'o', 'c', 'a', 't', 'e', 'd', '_', 'b', 'l', 'o', 'c', 'k', 's', ' '] ++ dec next ++ [nl]) ++
  (txt ['a', 'l', 'l', 'o', 'c', 'a', 't', 'o', 'r', 's', ' '] ++ dec st.nalloc ++ [nl])

/-- C31: a tree with the one key "apple" is written; the data is cut off before the line with the root.  It is loaded without an error,
as a usable tree without this key. -/
theorem C31_loses_a_key : ∃ s σ, Run demoEnv Calm s σ ∧ (∀ a, s.proc a = .idle) ∧ Machine s.st ∧ s.st.baReady = true ∧
    ∃ data p L st', Written (fun x => x) (fun _ => false) s.st data ∧ p <+: data ∧ p ≠ data ∧ loadState some p = .ok L ∧ L.start = some st' ∧
      content demoEnv.fetch s.st [97, 112, 112, 108, 101] = some 0 ∧ content demoEnv.fetch st' [97, 112, 112, 108, 101] = none := by
  obtain ⟨s, σ, hrun, hck⟩ := Run.ofCheck (l := demoKeys) (h := demoKeys_good) (G := Calm) (n := 2) calm_sound
    (acts := [.block] ++ putActs 0 [97, 112, 112, 108, 101] 0 2) (check := fun s _ => machineB s && s.st.baReady && (s.st.nextFreeBlock == 0) &&
      (content demoEnv.fetch s.st [97, 112, 112, 108, 101] == some 0) &&
      match loadState some (headerStart s.st 0) with
      | .ok L =>
        match L.start with
        | some st' => content demoEnv.fetch st' [97, 112, 112, 108, 101] == none
        | none => false
      | .error _ => false)
    (by decide +kernel)
  simp only [Bool.and_eq_true, beq_iff_eq] at hck
  obtain ⟨⟨⟨⟨h1, h2⟩, h3⟩, h4⟩, h5⟩ := hck
  obtain ⟨hid, hm⟩ := machineB_sound hrun h1
  split at h5
  · rename_i L hL
    split at h5
    · rename_i st' hst
      refine ⟨s, σ, hrun, hid, hm, h2, stateBytes (fun x => x) (fun _ => false) s.st 0 [], headerStart s.st 0, L, st',
        ⟨s.st, [], .inl rfl, by rw [h3]; exact List.Perm.refl _, by rw [h3]; rfl⟩, ?_, ?_, hL, hst, h4, by simpa using h5⟩
      · simp only [stateBytes, headerBytes, headerStart, List.append_assoc]
        simp only [List.prefix_append_right_inj]
        exact List.prefix_append _ _
      · intro e
        have e1 := congrArg List.length e
        simp only [stateBytes, headerBytes, headerStart, List.length_append] at e1
        have e2 : 0 < (txt ['e', 'p', 'o', 'c', 'h', ' ']).length := by decide
        omega
    · cases h5
  · cases h5

/-- C31 fails. -/
theorem C31_does_not_hold : ¬ C31_statement := by
  intro hC
  exact (hC _ _ Codec.id).2 [10] (C31_panics _)

/-- C31 fails also for truncated data alone. -/
theorem C31_truncated_does_not_hold : ¬ ∀ (env : Env) (s : Sys) (σ : Spec), Run env Calm s σ → (∀ a, s.proc a = .idle) → Machine s.st →
    ∀ empty data, Written (fun x => x) empty s.st data → ∀ p, p <+: data → p ≠ data → loadState some p = .error .err := by
  intro hC
  obtain ⟨s, σ, h1, h2, h3, _, data, p, L, st', h5, h6, h7, h8, _⟩ := C31_loses_a_key
  rw [hC _ _ _ h1 h2 h3 _ _ h5 _ h6 h7] at h8
  cases h8

/-- The hypotheses of `C31_truncated_partial` hold for the tree with two keys; the data is cut off in the block. -/
example : ∃ s σ, Run demoEnv Calm s σ ∧ (∀ a, s.proc a = .idle) ∧ s.st.baReady = true ∧ 0 < s.st.baNext ∧ Machine s.st ∧
    ∃ data p, Written (fun x => x) (fun _ => false) s.st data ∧ p <+: data ∧ p.length = data.length - 1 := by
  obtain ⟨s, σ, hrun, hck⟩ := Run.ofCheck (l := demoKeys) (h := demoKeys_good) (G := Calm) (n := 2) calm_sound
    (acts := demoActs.take 13 ++ [.block]) (check := fun s _ => machineB s && decide (0 < s.st.baNext) && s.st.baReady) (by decide +kernel)
  simp only [Bool.and_eq_true, decide_eq_true_eq] at hck
  obtain ⟨⟨h1, h2⟩, h3⟩ := hck
  obtain ⟨hid, hm⟩ := machineB_sound hrun h1
  obtain ⟨data, hw⟩ : ∃ data, Written (fun x => x) (fun _ => false) s.st data := ⟨_, s.st, _, .inl rfl, List.Perm.refl _, rfl⟩
  refine ⟨s, σ, hrun, hid, h3, h2, hm, data, data.take (data.length - 1), hw, List.take_prefix _ _, ?_⟩
  rw [List.length_take]
  exact Nat.min_eq_left (Nat.sub_le _ _)

end Radix
