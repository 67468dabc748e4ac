import Verif.Model.Readers
import Verif.MemProof
/-!
# Without other operations between the loads, the programs compute the functions of `Verif.Model.Walk` and `Verif.Model.Iterator`
-/
set_option autoImplicit false
namespace Radix

theorem run_bind {α β : Type} {st : St} : ∀ (p : Prog α) (f : α → Prog β), (p >>= f).run st = p.run st >>= fun a => (f a).run st
  | .ret (.ok _), _ => rfl
  | .ret (.error _), _ => rfl
  | .root k, f => run_bind (k st.root) f
  | .blocks k, f => run_bind (k st.nblocks) f
  | .load x k, f => run_bind (k (st.mem x)) f

theorem run_pure {α : Type} {st : St} (a : α) : (pure a : Prog α).run st = .ok a := rfl
theorem run_ret {α : Type} {st : St} (r : Res α) : (Prog.ret r).run st = r := rfl

theorem run_ite {α : Type} {st : St} {c : Prop} [Decidable c] (p q : Prog α) :
    (if c then p else q).run st = if c then p.run st else q.run st := by split <;> rfl

theorem res_bind_congr {α β : Type} {x : Res α} {f g : α → Res β} (h : ∀ a, x = .ok a → f a = g a) : (x >>= f) = x >>= g := by
  cases x with
  | error => rfl
  | ok a => exact h a rfl

section
variable {st : St}

theorem run_nodeDataP (n : Nat) : (nodeDataP n).run st = st.nodeData n := rfl

theorem run_getP (s : Slice) (i : Nat) : (s.getP i).run st = s.get st.mem i := by
  unfold Slice.getP Slice.get
  rw [run_ite]; rfl

theorem readWords_succ (m : Mem) (base n : Nat) : readWords m base (n + 1) = m base :: readWords m (base + 1) n := by
  rw [Nat.add_comm, readWords_append]; rfl

theorem readWords_snoc (m : Mem) (base n : Nat) : readWords m base (n + 1) = readWords m base n ++ [m (base + n)] := by
  rw [readWords_append]; rfl

theorem run_loadWords : ∀ (n base : Nat), (loadWords base n).run st = .ok (readWords st.mem base n)
  | 0, _ => rfl
  | n + 1, base => by
    show (loadWords (base + 1) n >>= fun ws => pure (st.mem base :: ws) : Prog _).run st = _
    rw [run_bind, run_loadWords n (base + 1), readWords_succ]
    rfl

theorem readWords_getElem? (m : Mem) (n base i : Nat) (h : i < n) : (readWords m base n)[i]? = some (m (base + i)) := by
  unfold readWords; simp [h]

theorem bytesOfWords_eq (m : Mem) (base n : Nat) : bytesOfWords (readWords m base ((n + 7) / 8)) n = readBytes m base n := by
  unfold bytesOfWords readBytes
  apply List.map_congr_left
  intro i hi
  have hi := List.mem_range.1 hi
  rw [List.getD_eq_getElem?_getD, readWords_getElem? m _ _ _ (by omega)]
  rfl

theorem run_appendPrefixP (dst : List UInt8) (src : Slice) (length : Nat) :
    (appendPrefixP dst src length).run st = appendPrefix st.mem dst src length := by
  have hz : ∀ s : Slice, (s.get st.mem 0 >>= fun _ => (pure () : Res Unit)) = if 0 < s.len then .ok () else .error .index := by
    intro s; unfold Slice.get; split <;> rfl
  unfold appendPrefixP appendPrefix
  rw [run_ite, run_ite]
  split
  · rfl
  · split
    · rw [run_bind, run_getP]
      refine res_bind_congr fun w _ => ?_
      rw [run_bind, run_ret]
      refine res_bind_congr fun s _ => ?_
      rw [run_bind, run_ret]
      unfold Slice.get
      by_cases h : 0 < s.len
      · rw [if_pos h, if_pos h]
        simp only [bind, Except.bind]
        have := run_bind (st := st) (loadWords s.base ((w.toNat + 7) / 8)) fun ws => pure (dst ++ bytesOfWords ws w.toNat, (w.toNat + 15) / 8)
        rw [run_loadWords] at this
        refine this.trans ?_
        simp only [bind, Except.bind]
        rw [run_pure, bytesOfWords_eq]
        rfl
      · rw [if_neg h, if_neg h]; rfl
    · rw [run_bind, run_ret]
      unfold Slice.get
      by_cases h : 0 < src.len
      · rw [if_pos h, if_pos h]
        simp only [bind, Except.bind]
        have := run_bind (st := st) (loadWords src.base ((length + 7) / 8)) fun ws => pure (dst ++ bytesOfWords ws length, (length + 7) / 8)
        rw [run_loadWords] at this
        refine this.trans ?_
        simp only [bind, Except.bind]
        rw [run_pure, bytesOfWords_eq]
        rfl
      · rw [if_neg h, if_neg h]; rfl

theorem run_skipPrefixP (data : Slice) (plen : Nat) : (skipPrefixP data plen).run st = skipPrefix st.mem data plen := by
  unfold skipPrefixP skipPrefix
  rw [run_ite, run_ite]
  split
  · split
    · rw [run_bind, run_getP]
      refine res_bind_congr fun w _ => ?_
      rw [run_bind, run_ret]
      rfl
    · rw [run_bind, run_ret]; rfl
  · rfl

theorem run_scanP {data : Slice} {k : UInt8} : ∀ (n i : Nat) (a : Word), i + n ≤ data.len →
    (scanP data k n i a).run st = .ok (if n = 0 then a else (scan k (readWords st.mem (data.base + i) n)).2)
  | 0, _, _, _ => rfl
  | n + 1, i, a, h => by
    unfold scanP
    rw [run_bind, run_getP]
    unfold Slice.get
    rw [if_pos (by omega)]
    simp only [bind, Except.bind]
    rw [run_ite, run_scanP n (i + 1) _ (by omega)]
    rw [if_neg (Nat.succ_ne_zero n), readWords_succ, run_pure]
    cases n with
    | zero =>
      show (if _ then _ else _) = Except.ok (scan k [_]).2
      unfold scan
      rw [if_pos rfl]
      by_cases hk : keyByte (st.mem (data.base + i)) ≥ k
      · rw [if_pos hk, if_pos hk]
      · rw [if_neg hk, if_neg hk]
    | succ n =>
      rw [if_neg (Nat.succ_ne_zero n), readWords_succ st.mem (data.base + i + 1), ← Nat.add_assoc, readWords_succ]
      conv => rhs; unfold scan
      by_cases hk : keyByte (st.mem (data.base + i)) ≥ k
      · rw [if_pos hk, if_pos hk]
      · rw [if_neg hk, if_neg hk]

theorem run_partialKidsP (raw : Word) (data : Slice) (k : UInt8) (depth : Nat) :
    (partialKidsP raw data k depth).run st = partialKids st.mem raw data k depth := by
  unfold partialKidsP partialKids
  rw [run_ite]
  split
  · rw [run_bind, run_getP]
    refine res_bind_congr fun a _ => ?_
    rw [run_ite, run_ite]; rfl
  · unfold Slice.words Slice.checkP
    rw [run_bind, run_ret]
    by_cases h : nodeCount raw ≤ data.len
    · rw [if_pos h, if_pos h]
      simp only [bind, Except.bind]
      refine (run_bind _ _).trans ?_
      rw [run_scanP _ _ _ (by omega)]
      have e : (if nodeCount raw = 0 then 0 else (scan k (readWords st.mem (data.base + 0) (nodeCount raw))).2) =
          (scan k (readWords st.mem data.base (nodeCount raw))).2 := by
        split
        · rename_i h; rw [h]; rfl
        · rfl
      rw [e]
      simp only [bind, Except.bind]
      rw [run_ite, run_ite]; rfl
    · rw [if_neg h, if_neg h]; rfl

theorem run_partialLoopP (sp : Key) : ∀ (fuel : Nat) (raw : Word) (depth : Nat),
    (partialLoopP sp fuel raw depth).run st = partialLoop st sp fuel raw depth
  | 0, _, _ => rfl
  | fuel + 1, raw, depth => by
    have hrest : ∀ (data : Slice) (depth : Nat), (do
        let k ← Prog.ret (keyAt sp depth)
        match ← partialKidsP raw data k depth with
        | .inl r => return r
        | .inr a => partialLoopP sp fuel a (depth + 1) : Prog (Word × Nat)).run st = (do
        let k ← keyAt sp depth
        match ← partialKids st.mem raw data k depth with
        | .inl r => return r
        | .inr a => partialLoop st sp fuel a (depth + 1)) := by
      intro data depth
      rw [run_bind, run_ret]
      refine res_bind_congr fun k _ => ?_
      rw [run_bind, run_partialKidsP]
      refine res_bind_congr fun r _ => ?_
      cases r with
      | inl r => rfl
      | inr a => exact run_partialLoopP sp fuel a (depth + 1)
    unfold partialLoopP partialLoop
    rw [run_ite]
    split
    · rfl
    · rw [run_bind, run_nodeDataP]
      refine res_bind_congr fun data _ => ?_
      rw [run_ite]
      split
      · rw [run_bind, run_appendPrefixP]
        refine res_bind_congr fun x _ => ?_
        obtain ⟨buf, slots⟩ := x
        simp only
        rw [run_bind, run_ret]
        refine res_bind_congr fun data _ => ?_
        cases cmpSearch (sp.drop depth) buf with
        | inside => rfl
        | miss => rfl
        | all =>
          simp only
          rw [run_ite]
          split
          · rfl
          · exact hrest data _
      · exact hrest data _

theorem run_partialSearchP (sp : Key) : (partialSearchP sp).run st = partialSearch st sp := by
  unfold partialSearchP partialSearch
  show (if sp.length = 0 then _ else _ : Prog _).run st = _
  rw [run_ite]
  split
  · rfl
  · rw [run_ite]
    split
    · rw [run_bind, run_ret]
      refine res_bind_congr fun k _ => ?_
      rw [run_ite]; rfl
    · exact run_partialLoopP _ _ _ _

theorem run_lastKidP {data : Slice} : ∀ (n : Nat), n ≤ data.len →
    (lastKidP data n).run st = .ok ((readWords st.mem data.base n).reverse.find? (· ≠ 0))
  | 0, _ => rfl
  | n + 1, h => by
    unfold lastKidP
    rw [run_bind, run_getP]
    unfold Slice.get
    rw [if_pos (by omega)]
    simp only [bind, Except.bind]
    rw [run_ite, run_lastKidP n (by omega), readWords_snoc, List.reverse_append, List.reverse_singleton, List.singleton_append, List.find?_cons]
    by_cases h0 : st.mem (data.base + n) = 0
    · simp [h0]
    · simp [h0, run_pure]

theorem run_firstKidP {data : Slice} : ∀ (n i : Nat), i + n ≤ data.len →
    (firstKidP data n i).run st = .ok ((readWords st.mem (data.base + i) n).find? (· ≠ 0))
  | 0, _, _ => rfl
  | n + 1, i, h => by
    unfold firstKidP
    rw [run_bind, run_getP]
    unfold Slice.get
    rw [if_pos (by omega)]
    simp only [bind, Except.bind]
    rw [run_ite, run_firstKidP n (i + 1) (by omega)]
    rw [readWords_succ, List.find?_cons]
    by_cases h0 : st.mem (data.base + i) = 0
    · simp [h0, Nat.add_assoc]
    · simp [h0, run_pure]

theorem run_maxLoopP : ∀ (fuel : Nat) (raw : Word), (maxLoopP fuel raw).run st = maxLoop st fuel raw
  | 0, _ => rfl
  | fuel + 1, raw => by
    unfold maxLoopP maxLoop
    rw [run_bind, run_nodeDataP]
    refine res_bind_congr fun data _ => ?_
    rw [run_bind, run_skipPrefixP]
    refine res_bind_congr fun x _ => ?_
    obtain ⟨_, _, data⟩ := x
    simp only
    rw [run_ite]
    split
    · unfold Slice.words
      by_cases h : 256 ≤ data.len
      · rw [if_pos h, run_bind, run_lastKidP _ h]
        simp only [bind, Except.bind]
        generalize List.find? _ _ = o
        cases o with
        | none => rfl
        | some a =>
          simp only
          rw [run_ite, run_maxLoopP]; rfl
      · rw [if_neg h, run_bind]
        have : (lastKidP data 256).run st = .error .index := by
          unfold lastKidP
          rw [run_bind, run_getP]
          unfold Slice.get
          rw [if_neg (show ¬ 255 < data.len by omega)]; rfl
        rw [this]; rfl
    · rw [run_bind, run_getP]
      refine res_bind_congr fun a _ => ?_
      rw [run_ite, run_maxLoopP]; rfl

theorem run_minLoopP : ∀ (fuel : Nat) (raw : Word), (minLoopP fuel raw).run st = minLoop st fuel raw
  | 0, _ => rfl
  | fuel + 1, raw => by
    unfold minLoopP minLoop
    rw [run_bind, run_nodeDataP]
    refine res_bind_congr fun data _ => ?_
    rw [run_bind, run_skipPrefixP]
    refine res_bind_congr fun x _ => ?_
    obtain ⟨_, _, data⟩ := x
    simp only
    rw [run_ite]
    split
    · unfold Slice.words Slice.checkP
      rw [run_bind, run_ret]
      by_cases h : nodeCount raw ≤ data.len
      · rw [if_pos h, if_pos h]
        simp only [bind, Except.bind]
        refine (run_bind _ _).trans ?_
        rw [run_firstKidP _ _ (by omega)]
        simp only [bind, Except.bind, Nat.add_zero]
        generalize List.find? _ _ = o
        cases o with
        | none => rfl
        | some a =>
          simp only
          rw [run_ite, run_minLoopP]; rfl
      · rw [if_neg h, if_neg h]; rfl
    · rw [run_bind, run_getP]
      refine res_bind_congr fun a _ => ?_
      rw [run_ite, run_minLoopP]; rfl

theorem run_maxKeyP (fuel : Nat) (sp : Key) : (maxKeyP fuel sp).run st = maxKey st fuel sp := by
  unfold maxKeyP maxKey
  rw [run_bind, run_partialSearchP]
  refine res_bind_congr fun x _ => ?_
  obtain ⟨raw, _⟩ := x
  simp only
  rw [run_ite, run_ite, run_maxLoopP]; rfl

theorem run_minKeyP (fuel : Nat) (sp : Key) : (minKeyP fuel sp).run st = minKey st fuel sp := by
  unfold minKeyP minKey
  rw [run_bind, run_partialSearchP]
  refine res_bind_congr fun x _ => ?_
  obtain ⟨raw, _⟩ := x
  simp only
  rw [run_ite, run_ite, run_minLoopP]; rfl

theorem run_scanKidsP (data : Slice) : ∀ (n k : Nat), (scanKidsP data n k).run st = scanKids st.mem data n k
  | 0, _ => rfl
  | n + 1, k => by
    unfold scanKidsP scanKids
    rw [run_bind, run_getP]
    refine res_bind_congr fun a _ => ?_
    rw [run_ite, run_ite, run_scanKidsP data n (k + 1), run_bind, run_scanKidsP data n (k + 1)]
    rfl

theorem run_nextKidP (data : Slice) : ∀ (n k : Nat), (nextKidP data n k).run st = nextKid st.mem data n k
  | 0, _ => rfl
  | n + 1, k => by
    unfold nextKidP nextKid
    rw [run_bind, run_getP]
    refine res_bind_congr fun a _ => ?_
    rw [run_ite, run_nextKidP data n (k + 1)]; rfl

theorem run_afterKidP (data : Slice) (count k : Nat) : (afterKidP data count k).run st = afterKid st.mem data count k := by
  unfold afterKidP afterKid
  rw [run_ite, run_nextKidP]; rfl

theorem run_countLoopP : ∀ (fuel : Nat) (c : Counter), (countLoopP fuel c).run st = countLoop st fuel c
  | 0, _ => rfl
  | fuel + 1, c => by
    unfold countLoopP countLoop
    simp only
    rw [run_bind, run_nodeDataP]
    refine res_bind_congr fun data _ => ?_
    rw [run_bind, run_skipPrefixP]
    refine res_bind_congr fun x _ => ?_
    obtain ⟨plen, slots, data⟩ := x
    simp only
    rw [run_bind, run_scanKidsP]
    refine res_bind_congr fun x _ => ?_
    obtain ⟨vs, r⟩ := x
    simp only
    cases r with
    | some x =>
      obtain ⟨k, a⟩ := x
      simp only
      rw [run_bind, run_afterKidP]
      exact res_bind_congr fun next _ => run_countLoopP _ _
    | none =>
      simp only
      generalize (c.visit (nodePlen c.raw) plen slots (nodeCount c.raw)).stack = stk
      cases stk with
      | nil => rfl
      | cons x stk => exact run_countLoopP _ _

theorem run_countP (fuel : Nat) (sp : Key) : (countP fuel sp).run st = count st fuel sp := by
  unfold countP count
  rw [run_bind, run_partialSearchP]
  refine res_bind_congr fun x _ => ?_
  obtain ⟨raw, _⟩ := x
  simp only
  rw [run_ite, run_ite, run_countLoopP]; rfl

theorem run_findKidP {data : Slice} {char : UInt8} : ∀ (n i : Nat), i + n ≤ data.len →
    (findKidP data char n i).run st = .ok (((readWords st.mem (data.base + i) n).findIdx? (fun a => keyByte a = char)).map
      fun l => (i + l, (readWords st.mem (data.base + i) n).getD l 0))
  | 0, _, _ => rfl
  | n + 1, i, h => by
    unfold findKidP
    rw [run_bind, run_getP]
    unfold Slice.get
    rw [if_pos (by omega)]
    simp only [bind, Except.bind]
    rw [run_ite, run_findKidP n (i + 1) (by omega)]
    rw [readWords_succ, List.findIdx?_cons]
    by_cases h0 : keyByte (st.mem (data.base + i)) = char
    · simp [h0, run_pure, readWords]
    · simp only [h0, if_false, decide_false, Bool.false_eq_true, Option.map_map]
      congr 1
      rw [show data.base + (i + 1) = data.base + i + 1 by omega]
      congr 1
      funext l
      simp only [Function.comp, readWords, List.getD_cons_succ, Prod.mk.injEq, and_true]
      omega

theorem run_seekLoopP (resumeAt : List UInt8) : ∀ (fuel k : Nat) (raw : Word) (stack : List ItPos),
    (seekLoopP resumeAt fuel k raw stack).run st = seekLoop st resumeAt fuel k raw stack
  | 0, _, _, _ => rfl
  | fuel + 1, k, raw, stack => by
    unfold seekLoopP seekLoop
    rw [run_ite]
    split
    · simp only
      rw [run_bind, run_nodeDataP]
      refine res_bind_congr fun data _ => ?_
      rw [run_bind, run_skipPrefixP]
      refine res_bind_congr fun x _ => ?_
      obtain ⟨plen, _, data⟩ := x
      simp only
      rw [run_ite]
      split
      · rfl
      · rw [run_bind, run_ret]
        refine res_bind_congr fun char _ => ?_
        rw [run_ite]
        split
        · rw [run_bind, run_getP]
          refine res_bind_congr fun a _ => ?_
          rw [run_ite, run_ite]
          split
          · split
            · rfl
            · rw [run_bind, run_nextKidP]
              exact res_bind_congr fun next _ => run_seekLoopP _ _ _ _ _
          · rfl
        · unfold Slice.words Slice.checkP
          rw [run_bind, run_ret]
          by_cases h : nodeCount raw ≤ data.len
          · rw [if_pos h, if_pos h]
            simp only [bind, Except.bind]
            refine (run_bind _ _).trans ?_
            rw [run_findKidP _ _ (by omega)]
            simp only [bind, Except.bind, Nat.add_zero]
            cases hf : (readWords st.mem data.base (nodeCount raw)).findIdx? fun a => decide (keyByte a = char) with
            | none => rfl
            | some l =>
              simp only [Option.map_some, Nat.zero_add]
              rw [run_ite, run_seekLoopP]; rfl
          · rw [if_neg h, if_neg h]; rfl
    · rfl

theorem run_resumeLoopP : ∀ (ps : List ItPos) (first : Bool) (acc : List UInt8), (resumeLoopP first ps acc).run st = resumeLoop st first ps acc
  | [], _, _ => rfl
  | p :: ps, first, acc => by
    unfold resumeLoopP resumeLoop
    rw [run_bind, run_nodeDataP]
    refine res_bind_congr fun data _ => ?_
    simp only
    rw [run_bind, run_appendPrefixP]
    refine res_bind_congr fun x _ => ?_
    obtain ⟨acc, slots⟩ := x
    simp only
    cases ps with
    | nil =>
      simp only
      rw [run_bind, run_getP]; rfl
    | cons q ps => exact run_resumeLoopP (q :: ps) false acc

theorem run_storeResumeP (stack : List ItPos) : (storeResumeP stack).run st = storeResume st stack := run_resumeLoopP _ _ _

theorem run_scanLoopP : ∀ (fuel : Nat) (raw : Word) (nextChild : Nat) (stack : List ItPos) (pf : List Word),
    (scanLoopP fuel raw nextChild stack pf).run st = scanLoop st fuel raw nextChild stack pf
  | 0, _, _, _, _ => rfl
  | fuel + 1, raw, nextChild, stack, pf => by
    unfold scanLoopP scanLoop
    simp only
    rw [run_bind, run_nodeDataP]
    refine res_bind_congr fun data _ => ?_
    rw [run_bind, run_skipPrefixP]
    refine res_bind_congr fun x _ => ?_
    obtain ⟨_, _, data⟩ := x
    simp only
    rw [run_bind, run_scanKidsP]
    refine res_bind_congr fun x _ => ?_
    obtain ⟨vs, r⟩ := x
    simp only
    cases r with
    | some x =>
      obtain ⟨k, a⟩ := x
      simp only
      rw [run_bind, run_afterKidP]
      exact res_bind_congr fun next _ => run_scanLoopP _ _ _ _ _
    | none =>
      simp only
      split
      · rfl
      · rw [run_ite, run_bind, run_storeResumeP, run_scanLoopP]; rfl

theorem run_startP (sp : Key) : (Iter.startP sp).run st = Iter.start st sp := by
  unfold Iter.startP Iter.start
  rw [run_ite, run_partialSearchP]; rfl

theorem run_nextP (fuel : Nat) (it : Iter) : (it.nextP fuel).run st = it.next st fuel := by
  unfold Iter.nextP Iter.next
  generalize it.prefetched[it.pp]? = o
  cases o with
  | some v => rfl
  | none =>
    simp only
    rw [run_ite]
    split
    · rfl
    · rw [run_bind, run_startP]
      refine res_bind_congr fun x _ => ?_
      obtain ⟨raw, _⟩ := x
      simp only
      rw [run_ite, run_ite]
      split
      · rfl
      · split
        · rfl
        · rw [run_bind, run_seekLoopP]
          refine res_bind_congr fun x _ => ?_
          obtain ⟨raw, nextChild, stack⟩ := x
          simp only
          rw [run_bind, run_scanLoopP]
          refine res_bind_congr fun x _ => ?_
          obtain ⟨pf, res⟩ := x
          simp only
          cases pf <;> rfl
end

end Radix
