import Verif.Properties.Concurrent
/-!
# Property C59: keys of any length

The other theorems are about keys shorter than 2,000,000 bytes (`Env.len`).  Here the length of the keys is not restricted: what two keys have in
common is stored in one node, and a node has to fit into a block.
-/
set_option autoImplicit false
namespace Radix

/-- The documented contract (allocator.go:95-169), as `Env.Allowed`, without a restriction of the length of the keys. -/
def AllowedBy (keys : Key → Prop) (fetch : Word → Key) (s : Sys) : Act → Prop
  | .begin _ (.update key) => keys key
  | .begin _ (.delete key) => key ≠ []
  | .begin _ (.lookup key) => key ≠ []
  | .publish a value | .build a value =>
    match s.proc a with
    | .upd (.held _ op) => fetch (trunc55 value) = op.key
    | .del (.held cur) => fetch cur.op.value = cur.key
    | _ => True
  | _ => True

/-- Executions from a new tree in which operations do not overlap, with keys of any length. -/
inductive RunAny (keys : Key → Prop) (fetch : Word → Key) : Sys → Prop
  | init (n : Nat) : RunAny keys fetch (Sys.new n)
  | step {s act s' ev} : RunAny keys fetch s → AllowedBy keys fetch s act → Serial s act → exec fetch s act = some (.ok (s', ev)) →
      RunAny keys fetch s'

/-- C59 in full: as long as there is memory, no update panics before its change has taken effect, whatever the length of the keys. -/
def C59_statement : Prop :=
  ∀ (keys : Key → Prop) (fetch : Word → Key), (∀ {k}, keys k → k ≠ []) → (∀ {k k'}, keys k → keys k' → k <+: k' → k = k') →
    ∀ (s : Sys), RunAny keys fetch s → ∀ (a : Nat) (value : Word) (e : Panic), AllowedBy keys fetch s (.publish a value) →
      exec fetch s (.publish a value) = some (.error e) → e = .noBlocks

theorem Env.allowed_iff (env : Env) (s : Sys) (act : Act) : env.Allowed s act ↔ AllowedBy env.keys env.fetch s act := by
  cases act with
  | begin a c => cases c <;> exact Iff.rfl
  | _ => exact Iff.rfl

/-- C59 for keys shorter than 2,000,000 bytes. -/
theorem C59_fits_partial {keys : Key → Prop} {fetch : Word → Key} (hne : ∀ {k}, keys k → k ≠ [])
    (hfree : ∀ {k k'}, keys k → keys k' → k <+: k' → k = k') (hlen : ∀ {k}, keys k → k.length < 2000000) {s : Sys} (h : RunAny keys fetch s)
    {a : Nat} {value : Word} {e : Panic} (hall : AllowedBy keys fetch s (.publish a value))
    (he : exec fetch s (.publish a value) = some (.error e)) : e = .noBlocks := by
  let env : Env := ⟨keys, fetch, hne, hlen, hfree⟩
  have hr : ∃ σ, Run env Serial s σ := by
    clear he hall
    induction h with
    | init n => exact ⟨_, .init n⟩
    | step _ h1 h2 h3 ih => obtain ⟨σ, hσ⟩ := ih; exact ⟨_, .step hσ ((env.allowed_iff _ _).2 h1) h2 h3⟩
  obtain ⟨σ, hσ⟩ := hr
  obtain ⟨hc, hS⟩ := hσ.serial
  obtain ⟨t, seen, hI⟩ := hc.inv
  rcases C10_panics_partial hc (act := .publish a value) ((env.allowed_iff _ _).2 hall) (hS.calm hI trivial) he with ⟨_, h⟩ | ⟨_, ⟨⟩, _⟩ | ⟨_, ⟨⟩, _⟩
  exact h

/-- The update of `key'` after the first key has been stored in a new tree with value 0. -/
def longOp (x : UInt8) (key' : Key) : UpdOp :=
  { key := key', k := x, currentLeaf := buildLeaf x 0, kind := .rootLeafUpdate, value := 0 }

theorem RunAny.next {keys : Key → Prop} {fetch : Word → Key} {s : Sys} (act : Act) {s' : Sys} {ev : Ev} (h : RunAny keys fetch s)
    (h1 : exec fetch s act = some (.ok (s', ev))) (h2 : AllowedBy keys fetch s act) (h3 : Serial s act) : RunAny keys fetch s' := .step h h2 h3 h1

/-- Only allocator 0 does anything, and it has not used any memory yet. -/
structure Early (s : Sys) (p : Proc) (root : Word) (lk : Int) : Prop where
  proc : ∀ b, s.proc b = if b = 0 then p else .idle
  alloc : 0 < s.st.nalloc
  next : s.st.baNext = 0
  ready : s.st.baReady = false
  free : (s.st.allocs 0).nextFree = blockSize
  lists : (s.st.allocs 0).recycler = fun _ => []
  root : s.st.root = root
  lock : s.st.rootLock = lk

theorem Early.here {s : Sys} {p : Proc} {r : Word} {lk : Int} (h : Early s p r lk) : s.proc 0 = p := by rw [h.proc]; rfl

theorem Early.set {s : Sys} {p : Proc} {r : Word} {lk : Int} (h : Early s p r lk) {st : St} {q : Proc} {r' : Word} {lk' : Int}
    (h1 : st.nalloc = s.st.nalloc) (h2 : st.baNext = s.st.baNext) (h3 : st.baReady = s.st.baReady)
    (h4 : (st.allocs 0).nextFree = (s.st.allocs 0).nextFree) (h5 : (st.allocs 0).recycler = (s.st.allocs 0).recycler)
    (h6 : st.root = r') (h7 : st.rootLock = lk') : Early (s.set 0 st q) q r' lk' := by
  refine ⟨fun b => ?_, h1 ▸ h.alloc, h2 ▸ h.next, h3 ▸ h.ready, h4 ▸ h.free, h5 ▸ h.lists, h6, h7⟩
  simp only [Sys.set, upd, h.proc]
  split <;> rfl

theorem Early.step {keys : Key → Prop} {fetch : Word → Key} {s : Sys} {p : Proc} {r : Word} {lk : Int} (h : Early s p r lk)
    (hr : RunAny keys fetch s) (act : Act) {st : St} {q : Proc} {ev : Ev} {r' : Word} {lk' : Int}
    (he : exec fetch s act = some (.ok (s.set 0 st q, ev))) (hall : AllowedBy keys fetch s act) (hs : Serial s act)
    (h1 : st.nalloc = s.st.nalloc) (h2 : st.baNext = s.st.baNext) (h3 : st.baReady = s.st.baReady)
    (h4 : (st.allocs 0).nextFree = (s.st.allocs 0).nextFree) (h5 : (st.allocs 0).recycler = (s.st.allocs 0).recycler)
    (h6 : st.root = r') (h7 : st.rootLock = lk') : ∃ s', RunAny keys fetch s' ∧ Early s' q r' lk' :=
  ⟨_, .step hr hall hs he, h.set h1 h2 h3 h4 h5 h6 h7⟩

/-- What `PrepareUpdate(x :: ks)` returns while the root is empty or a leaf. -/
def earlyOp (r : Word) (x : UInt8) (ks : Key) : UPh :=
  if r = 0 then .held false { key := x :: ks, k := x, kind := .replaceEmptyRootWithLeaf }
  else if keyByte r = x then .held true { key := x :: ks, k := x, currentLeaf := r, kind := .rootLeafUpdate, value := leafValue r }
  else .held false { key := x :: ks, k := x, currentLeaf := r, kind := .replaceLeafRootWithNode }

/-- `PrepareUpdate(x :: ks)` while the root is empty or a leaf, up to the locked root. -/
theorem Early.prepare {keys : Key → Prop} {fetch : Word → Key} {s : Sys} {r : Word} (h : Early s .idle r 0) (hr : RunAny keys fetch s)
    {x : UInt8} {ks : Key} (hk : keys (x :: ks)) (hl : r = 0 ∨ isLeaf r = true) :
    ∃ s', RunAny keys fetch s' ∧ Early s' (.upd (earlyOp r x ks)) r 1 := by
  obtain ⟨s1, r1, e1⟩ := h.step hr (.begin 0 (.update (x :: ks))) (by simp only [exec, h.here]; rw [if_pos h.alloc]) hk
    (fun b => by rw [h.proc]; split <;> rfl) rfl rfl rfl rfl rfl h.root h.lock
  obtain ⟨s2, r2, e2⟩ := e1.step r1 (.arm 0) (q := .upd (.start (x :: ks)))
    (st := { s1.st with resv := upd s1.st.resv 0 s.st.epoch }) (by simp only [exec, e1.here]; rfl) trivial trivial rfl rfl rfl rfl rfl
    e1.root e1.lock
  obtain ⟨s3, r3, e3⟩ := e2.step r2 (.run 0) (q := .upd (.root (x :: ks) r)) (st := s2.st) (ev := .none)
    (by
      have := e2.root
      simp only [exec, e2.here, stepU]
      rw [if_pos (by rw [this]; exact hl), this]; rfl)
    trivial trivial rfl rfl rfl rfl rfl e2.root e2.lock
  exact e3.step r3 (.run 0) (q := .upd (earlyOp r x ks)) (st := { s3.st with rootLock := 1 }) (ev := .none)
    (by
      have h1 := e3.root
      have h2 := e3.lock
      simp only [exec, e3.here, stepU, St.lockLeafRoot, h1, h2, if_true, keyAt, List.getElem?_cons_zero, bind, Except.bind, earlyOp]
      by_cases c1 : r = 0
      · simp only [if_pos c1]; rfl
      · by_cases c2 : keyByte r = x
        · simp only [if_neg c1, if_pos c2]; rfl
        · simp only [if_neg c1, if_neg c2]; rfl)
    trivial trivial rfl rfl rfl rfl rfl e3.root rfl

/-- Two keys with the same first byte: the first one has been stored in a new tree, the second one is prepared. -/
theorem long_prepared {keys : Key → Prop} {fetch : Word → Key} {n : Nat} (hn : 0 < n) {x : UInt8} {ks ks' : Key}
    (hk : keys (x :: ks)) (hk' : keys (x :: ks')) (hf : fetch 0 = x :: ks) :
    ∃ s, RunAny keys fetch s ∧ Early s (.upd (.held true (longOp x (x :: ks')))) (buildLeaf x 0) 1 := by
  have h0 : Early (Sys.new n) .idle 0 0 := ⟨fun b => by split <;> rfl, hn, rfl, rfl, rfl, rfl, rfl, rfl⟩
  obtain ⟨s, r1, e1⟩ := h0.prepare (.init n) hk (.inl rfl)
  have hop : earlyOp 0 x ks = .held false { key := x :: ks, k := x, kind := .replaceEmptyRootWithLeaf } := if_pos rfl
  rw [hop] at e1
  obtain ⟨s2, r2, e2⟩ := e1.step r1 (.publish 0 0) (q := .upd (.tail true { unl := .root, items := 1 }))
    (st := s.st.store .root (buildLeaf x 0)) (ev := .put (x :: ks) 0)
    (by
      have hroot := e1.root
      simp only [exec, e1.here, publishU, St.cas, St.load, hroot, if_true]
      rfl)
    (by simp only [AllowedBy, e1.here]; exact hf) trivial rfl rfl rfl rfl rfl (r' := buildLeaf x 0) rfl e1.lock
  obtain ⟨s3, r3, e3⟩ := e2.step r2 (.tail 0) (q := .idle) (st := ((s2.st.unlockRoot).addItems 0 1).endOp 0) (ev := .none)
    (by simp only [exec, e2.here]; rfl) trivial trivial rfl rfl rfl
    (by simp [St.addItems, St.endOp, St.unlockRoot]) (by simp [St.addItems, St.endOp, St.unlockRoot])
    (r' := buildLeaf x 0) e2.root (lk' := 0) (by
      have := e2.lock
      simp only [St.addItems, St.endOp, St.unlockRoot, this]; rfl)
  obtain ⟨s4, r4, e4⟩ := e3.prepare r3 hk' (.inr (by simp))
  have hop : earlyOp (buildLeaf x 0) x ks' = .held true (longOp x (x :: ks')) := by
    rw [earlyOp, if_neg (buildLeaf_ne_zero x 0), if_pos (keyByte_buildLeaf x 0), leafValue_buildLeaf]; rfl
  rw [hop] at e4
  exact ⟨s4, r4, e4⟩

/-- The first allocation of allocator 0 in a new tree: the node is placed at slot 1, and there are 262143 slots up to the end of the block. -/
theorem Early.newNode {s : Sys} {p : Proc} {r : Word} {lk : Int} (h : Early s p r lk) (slots : Nat) :
    ∃ st, s.st.newNode 0 slots = .ok (1, st) ∧ st.nodeData 1 = .ok ⟨1, 262143⟩ ∧ st.root = s.st.root := by
  have h1 : (sizesToTry slots).findSome? (fun t => (pickItem s.st.minReservation ((s.st.allocs 0).recycler t)).map (Prod.mk t)) = none := by
    rw [List.findSome?_eq_none_iff]
    intro t _
    rw [h.lists]
    rfl
  have h2 : ∃ st, s.st.allocFresh 0 slots = .ok (1, st) ∧ st.nodeData 1 = .ok ⟨1, 262143⟩ ∧ st.root = s.st.root := by
    unfold St.allocFresh
    simp only
    rw [if_pos (by rw [h.free]; omega)]
    have hb : s.st.blockStep = .ok { s.st with mem := fun a => if a / blockSlots = s.st.baNext then 0 else s.st.mem a, baReady := true } := by
      unfold St.blockStep
      rw [if_neg (by rw [h.ready]; decide), if_pos (by rw [h.next]; decide)]
    have hn := h.next
    rw [hb]
    simp only [bind, Except.bind, hn]
    refine ⟨_, rfl, ?_, rfl⟩
    simp [St.nodeData, St.nblocks, blockSlots]
  obtain ⟨st, h3, h4⟩ := h2
  refine ⟨st, ?_, h4⟩
  unfold St.newNode
  simp only [h1]
  exact h3

theorem storePrefix_eq {m : Mem} {d : Slice} {pfx : List UInt8} (h : 255 ≤ pfx.length) (hd : 2 ≤ d.len) :
    storePrefix m d pfx = .ok (writeBytes (upd m d.base (UInt64.ofNat pfx.length)) (d.base + 1) pfx) := by
  unfold storePrefix
  rw [if_pos h]
  simp only [Slice.set, Slice.drop, Slice.get, bind, Except.bind]
  rw [if_pos (by omega)]
  simp only
  rw [if_pos (by omega)]
  simp only
  rw [if_pos (by omega)]
  rfl

theorem rootCommon_split : ∀ {c r r' : Key} {y z : UInt8}, y ≠ z → rootCommon (c ++ y :: r) (c ++ z :: r') = .ok c.length
  | [], _, _, _, _, h => by simp [rootCommon, h]
  | x :: cs, r, r', y, z, h => by
    simp only [List.cons_append, rootCommon, if_true]
    rw [if_neg (by simp), rootCommon_split h]
    rfl

theorem keyAt_split {c r : Key} {y : UInt8} : keyAt (c ++ y :: r) c.length = .ok y := by
  simp [keyAt]

/-- Two leaves are added to a node if there is room for them. -/
theorem addSortedChildren_room (m : Mem) (d : Slice) (u w : Word) :
    if 2 ≤ d.len then ∃ m', addSortedChildren m d u w = .ok m' else addSortedChildren m d u w = .error .index := by
  have hset : ∀ (m : Mem) (i : Nat) (w : Word), d.set m i w = if i < d.len then .ok (upd m (d.base + i) w) else .error .index := fun _ _ _ => rfl
  by_cases h : 2 ≤ d.len
  · rw [if_pos h]
    unfold addSortedChildren
    have h0 : 0 < d.len := by omega
    have h1 : 1 < d.len := by omega
    simp only [hset, if_pos h0, if_pos h1, bind, Except.bind]
    split <;> exact ⟨_, rfl⟩
  · rw [if_neg h]
    unfold addSortedChildren
    have h1 : ¬ 1 < d.len := by omega
    by_cases h' : 0 < d.len
    · simp only [hset, if_pos h', if_neg h1, bind, Except.bind]
      split <;> rfl
    · simp only [hset, if_neg h', bind, Except.bind]
      split <;> rfl

/-- The new node for a common prefix `c`: there is room for `c` and two children exactly if `c` has less than 2,097,121 bytes. -/
theorem Early.room {s : Sys} {p : Proc} {r : Word} {lk : Int} (h : Early s p r lk) {c : Key} (hc : c ≠ []) (u w : Word) :
    if c.length < 2097121 then ∃ n d st m, s.st.allocNodeP 0 2 c = .ok (n, d, st) ∧ addSortedChildren st.mem d u w = .ok m ∧ st.root = s.st.root
    else s.st.allocNodeP 0 2 c = .error .index ∨
      ∃ n d st, s.st.allocNodeP 0 2 c = .ok (n, d, st) ∧ addSortedChildren st.mem d u w = .error .index := by
  have hpos : 0 < c.length := List.length_pos_iff.2 hc
  obtain ⟨st, h1, h2, h3⟩ := h.newNode (2 + prefixSlots c.length)
  have hst : ∃ m, storePrefix st.mem ⟨1, 262143⟩ c = .ok m := by
    by_cases hl : 255 ≤ c.length
    · exact ⟨_, storePrefix_eq hl (by decide)⟩
    · obtain ⟨m, hm, _⟩ := storePrefix_ok (m := st.mem) (dst := ⟨1, 262143⟩) (pfx := c) (by
        show prefixSlots c.length ≤ 262143
        unfold prefixSlots
        rw [if_neg (by omega)]; omega) hc
      exact ⟨m, hm⟩
  obtain ⟨m, hm⟩ := hst
  have hall : s.st.allocNodeP 0 2 c = if prefixSlots c.length ≤ 262143 then
      .ok (1, ⟨1 + prefixSlots c.length, 262143 - prefixSlots c.length⟩, { st with mem := m }) else .error .index := by
    unfold St.allocNodeP
    simp only [h1, h2, bind, Except.bind, gt_iff_lt, if_pos hpos, hm, Slice.drop]
    by_cases hl : prefixSlots c.length ≤ 262143
    · simp only [if_pos hl]; rfl
    · simp only [if_neg hl]
  have hps : c.length < 2097121 ↔ prefixSlots c.length + 2 ≤ 262143 := by
    unfold prefixSlots
    split <;> omega
  have hroom := addSortedChildren_room m ⟨1 + prefixSlots c.length, 262143 - prefixSlots c.length⟩ u w
  by_cases hl : c.length < 2097121
  · have hl' := hps.1 hl
    rw [if_pos hl]
    rw [if_pos (show 2 ≤ 262143 - prefixSlots c.length by omega)] at hroom
    obtain ⟨m', hm'⟩ := hroom
    exact ⟨1, _, { st with mem := m }, m', by rw [hall, if_pos (by omega)], hm', h3⟩
  · have hl' : ¬ prefixSlots c.length + 2 ≤ 262143 := fun h => hl (hps.2 h)
    rw [if_neg hl]
    rw [if_neg (show ¬ 2 ≤ 262143 - prefixSlots c.length by omega)] at hroom
    by_cases hl2 : prefixSlots c.length ≤ 262143
    · exact .inr ⟨1, _, { st with mem := m }, by rw [hall, if_pos hl2], hroom⟩
    · exact .inl (by rw [hall, if_neg hl2])

/-- C59 is false from a certain length on, exactly: the keys `c ++ y :: r` and `c ++ z :: r'` are inserted into a new tree.  If they have less than
2,097,121 bytes in common, `Finalize` of the second insert stores the key; otherwise it panics, with the root locked. -/
theorem C59_limit {keys : Key → Prop} {fetch : Word → Key} {n : Nat} (hn : 0 < n) {c r r' : Key} {y z : UInt8} (hc : c ≠ []) (hyz : y ≠ z)
    (hk : keys (c ++ y :: r)) (hk' : keys (c ++ z :: r')) (hf : fetch 0 = c ++ y :: r) :
    ∃ s op, RunAny keys fetch s ∧ s.proc 0 = .upd (.held true op) ∧ op.key = c ++ z :: r' ∧ s.st.rootLock = 1 ∧
      ∀ v, if c.length < 2097121 then ∃ s', exec fetch s (.publish 0 v) = some (.ok (s', .put (c ++ z :: r') (trunc55 v)))
        else exec fetch s (.publish 0 v) = some (.error .index) := by
  obtain ⟨x, cs, rfl⟩ : ∃ x cs, c = x :: cs := by cases c with | nil => exact absurd rfl hc | cons x cs => exact ⟨x, cs, rfl⟩
  obtain ⟨s, hr, he⟩ := long_prepared (ks' := cs ++ z :: r') hn hk hk' hf
  refine ⟨s, _, hr, he.here, rfl, he.lock, fun v => ?_⟩
  have hp := he.here
  have hne : decide (fetch (longOp x (x :: (cs ++ z :: r'))).value = (longOp x (x :: (cs ++ z :: r'))).key) = false := by
    rw [decide_eq_false_iff_not]
    intro h
    have h : fetch 0 = x :: (cs ++ z :: r') := h
    rw [hf] at h
    simp at h
    exact hyz h.1
  have hcom : rootCommon (x :: (cs ++ z :: r')) (fetch 0) = .ok (x :: cs).length := by
    rw [hf]
    exact rootCommon_split (c := x :: cs) hyz.symm
  have hka : keyAt (x :: (cs ++ z :: r')) (x :: cs).length = .ok z := keyAt_split (c := x :: cs)
  have hkb : keyAt (fetch 0) (x :: cs).length = .ok y := by rw [hf]; exact keyAt_split
  have htake : (x :: (cs ++ z :: r')).take (x :: cs).length = x :: cs := by
    rw [← List.cons_append]; exact List.take_left
  have hroom := he.room hc (buildLeaf z v) (updateLeafKey (buildLeaf x 0) y)
  have hex : exec fetch s (.publish 0 v) = some (do
      let (b, tl, st) ← publishU s.st 0 (longOp x (x :: (cs ++ z :: r'))) (fetch 0) false v
      return (s.set 0 st (.upd (.tail b tl)), if b then .put (x :: (cs ++ z :: r')) (trunc55 v) else .none)) := by
    simp only [exec, hp, hne]
    rfl
  rw [hex]
  split
  · rename_i hl
    rw [if_pos hl] at hroom
    obtain ⟨nn, d, st, m, h1, h2, h3⟩ := hroom
    refine ⟨s.set 0 { st with mem := m, root := buildNode 0 nn 2 (x :: cs).length } (.upd (.tail true { unl := .root, items := 1 })), ?_⟩
    have hroot : st.root = buildLeaf x 0 := h3.trans he.root
    simp only [publishU, longOp, hcom, htake, h1, hka, hkb, h2, bind, Except.bind, St.cas, St.load, hroot, if_true, Bool.false_eq_true, if_false]
    rfl
  · rename_i hl
    rw [if_neg hl] at hroom
    rcases hroom with h1 | ⟨nn, d, st, h1, h2⟩
    · simp only [publishU, longOp, hcom, htake, h1, bind, Except.bind, Bool.false_eq_true, if_false]
    · simp only [publishU, longOp, hcom, htake, h1, hka, hkb, h2, bind, Except.bind, Bool.false_eq_true, if_false]

/-- What happens before the panic: if the keys have at least 2,097,144 bytes in common, the allocator gives out a node at the start of a block, and bytes of
the key are stored in memory behind the end of the block (`memmove` in unsafe.go:26 is not checked). -/
theorem C59_overwrites {keys : Key → Prop} {fetch : Word → Key} {n : Nat} (hn : 0 < n) {c r r' : Key} {y z : UInt8}
    (hk : keys (c ++ y :: r)) (hk' : keys (c ++ z :: r')) (hf : fetch 0 = c ++ y :: r) (hl : 2097144 ≤ c.length) :
    ∃ s op nn st d m, RunAny keys fetch s ∧ s.proc 0 = .upd (.held true op) ∧ op.key = c ++ z :: r' ∧
      s.st.newNode 0 (2 + prefixSlots c.length) = .ok (nn, st) ∧ st.nodeData nn = .ok d ∧ (d.base + d.len) % blockSlots = 0 ∧
      storePrefix st.mem d c = .ok m ∧ ∀ t, t < 8 → some (byteOf (m (d.base + d.len)) t) = c[2097136 + t]? := by
  obtain ⟨x, cs, rfl⟩ : ∃ x cs, c = x :: cs := by cases c with | nil => simp at hl | cons x cs => exact ⟨x, cs, rfl⟩
  obtain ⟨s, hr, he⟩ := long_prepared (ks' := cs ++ z :: r') hn hk hk' hf
  obtain ⟨st, h1, h2, h3⟩ := he.newNode (2 + prefixSlots (x :: cs).length)
  refine ⟨s, _, 1, st, ⟨1, 262143⟩, _, hr, he.here, rfl, h1, h2, by decide, storePrefix_eq (by omega) (by decide), fun t ht => ?_⟩
  unfold writeBytes
  rw [if_pos (by show 1 + 1 ≤ 262144 ∧ 262144 < 1 + 1 + ((x :: cs).length + 7) / 8; omega), byteOf_assemble _ ht]
  show some ((x :: cs).getD (8 * (262144 - 2) + t) _) = _
  rw [show 8 * (262144 - 2) + t = 2097136 + t by omega, List.getD_eq_getElem?_getD, List.getElem?_eq_getElem (by omega)]
  rfl

/-- Keys of `L + 1` bytes that differ in the last one, and values that refer to them. -/
def alike (L : Nat) (y : UInt8) : Key := List.replicate L 97 ++ [y]
def alikeKeys (L : Nat) (k : Key) : Prop := ∃ y, k = alike L y
def alikeFetch (L : Nat) (v : Word) : Key := alike L (UInt8.ofNat v.toNat)

theorem alikeKeys_ne {L : Nat} {k : Key} (h : alikeKeys L k) : k ≠ [] := by
  obtain ⟨y, rfl⟩ := h
  simp [alike]

theorem alikeKeys_free {L : Nat} {k k' : Key} (h : alikeKeys L k) (h' : alikeKeys L k') (hp : k <+: k') : k = k' := by
  obtain ⟨y, rfl⟩ := h
  obtain ⟨z, rfl⟩ := h'
  exact hp.eq_of_length (by simp [alike])

theorem alikeKeys_len {L : Nat} {k : Key} (h : alikeKeys L k) : k.length = L + 1 := by
  obtain ⟨y, rfl⟩ := h
  simp [alike]

theorem alike_insert {L : Nat} (hL : 0 < L) : ∃ s, RunAny (alikeKeys L) (alikeFetch L) s ∧ AllowedBy (alikeKeys L) (alikeFetch L) s (.publish 0 1) ∧
    if L < 2097121 then ∃ s', exec (alikeFetch L) s (.publish 0 1) = some (.ok (s', .put (alike L 1) 1))
    else exec (alikeFetch L) s (.publish 0 1) = some (.error .index) := by
  obtain ⟨s, op, hr, hp, hk, _, h⟩ := C59_limit (keys := alikeKeys L) (fetch := alikeFetch L) (n := 1) (by decide)
    (c := List.replicate L 97) (r := []) (r' := []) (y := 0) (z := 1) (by intro e; have := congrArg List.length e; simp at this; omega) (by decide)
    ⟨0, rfl⟩ ⟨1, rfl⟩ rfl
  have h1 := h 1
  rw [List.length_replicate] at h1
  exact ⟨s, hr, by simp only [AllowedBy, hp]; rw [hk]; rfl, h1⟩

/-- C59 does not hold in full: with keys of 3 MB the tree panics. -/
theorem C59_does_not_hold : ¬ C59_statement := by
  intro hall
  obtain ⟨s, hr, ha, h⟩ := alike_insert (L := 3000000) (by decide)
  rw [if_neg (by decide)] at h
  cases hall _ _ alikeKeys_ne alikeKeys_free s hr 0 1 _ ha h

/-- The hypotheses of `C59_fits_partial` are met, e.g. by keys of 100,001 bytes; the second insert succeeds. -/
example : (∀ {k}, alikeKeys 100000 k → k.length < 2000000) ∧ ∃ s, RunAny (alikeKeys 100000) (alikeFetch 100000) s ∧
    AllowedBy (alikeKeys 100000) (alikeFetch 100000) s (.publish 0 1) ∧
    ∃ s', exec (alikeFetch 100000) s (.publish 0 1) = some (.ok (s', .put (alike 100000 1) 1)) := by
  refine ⟨fun h => by rw [alikeKeys_len h]; decide, ?_⟩
  obtain ⟨s, hr, ha, h⟩ := alike_insert (L := 100000) (by decide)
  rw [if_pos (by decide)] at h
  exact ⟨s, hr, ha, h⟩

/-- The hypotheses of `C59_overwrites` are met, e.g. by keys of 3,000,001 bytes. -/
example : ∃ c : Key, 2097144 ≤ c.length ∧ alikeKeys 3000000 (c ++ 0 :: []) ∧ alikeKeys 3000000 (c ++ 1 :: []) ∧
    alikeFetch 3000000 0 = c ++ 0 :: [] :=
  ⟨List.replicate 3000000 97, by rw [List.length_replicate]; decide, ⟨0, rfl⟩, ⟨1, rfl⟩, rfl⟩

end Radix
