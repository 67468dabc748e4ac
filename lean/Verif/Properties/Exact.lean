import Verif.Sys.Exact
import Verif.Demo
import Verif.Properties.Budget
import Verif.Properties.Leak
/-!
# C50: no memory is lost

A slot of a block that has been handed out belongs to a node of the tree, to the memory recycled, or to the rest of the block an allocator fills.
-/
set_option autoImplicit false
namespace Radix
open T

/-! ## Specification -/

/-- Slot `x` belongs to a node that can be reached from the root. -/
def InTree (st : St) (x : Nat) : Prop := ∃ w, LiveNode st w ∧ Occupies st w x

/-- Slot `x` belongs to memory that an allocator has recycled. -/
def InRecycler (st : St) (x : Nat) : Prop :=
  ∃ a n it, a < st.nalloc ∧ n < recyclerLen ∧ it ∈ (st.allocs a).recycler n ∧ it.n ≤ x ∧ x < it.n + n

/-- Slot `x` belongs to the rest of the block that an allocator fills (the last slot of a block is never used). -/
def InRest (st : St) (x : Nat) : Prop :=
  ∃ a, a < st.nalloc ∧ ((st.allocs a).offset + (st.allocs a).nextFree) / 8 ≤ x ∧ x < (st.allocs a).offset / 8 + (blockSlots - 1)

/-- Exactly one of three. -/
def OneOf3 (p q r : Prop) : Prop := (p ∧ ¬ q ∧ ¬ r) ∨ (¬ p ∧ q ∧ ¬ r) ∨ (¬ p ∧ ¬ q ∧ r)

/-- Slot `x` is in a block that has been handed out, it is not slot 0, and it is not one of the last 258 slots of its block (more than any node with
a prefix of at most nine bytes has), which may be given up when the next request does not fit. -/
def Counts (st : St) (x : Nat) : Prop := x ≠ 0 ∧ x / blockSlots < st.baNext ∧ x % blockSlots + 258 < blockSlots

/-- Executions as in `Run`, each step from `s` to `s'` satisfying `G s act s'`. -/
inductive RunIf (env : Env) (G : Sys → Act → Sys → Prop) : Sys → Spec → Prop
  | init (n : Nat) : RunIf env G (Sys.new n) .init
  | reload {s σ} : RunIf env G s σ → s.Savable → RunIf env G ⟨s.st.restore, fun _ => .idle⟩ σ
  | step {s σ act s' ev} : RunIf env G s σ → env.Allowed s act → exec env.fetch s act = some (.ok (s', ev)) → G s act s' →
      RunIf env G s' (σ.next ev)

/-- C50, in full: with keys of at most nine bytes, whenever no operation is going on, every slot that counts is in the tree, in the recycled memory or in
the rest of an allocator's block, and only in one of these. -/
def C50_statement : Prop :=
  ∀ (env : Env), (∀ k, env.keys k → k.length ≤ 9) → ∀ (s : Sys) (σ : Spec), RunIf env (fun _ _ _ => True) s σ → (∀ a, s.proc a = .idle) →
    ∀ x, Counts s.st x → OneOf3 (InTree s.st x) (InRecycler s.st x) (InRest s.st x)

/-! ## What the counts mean -/

theorem sum_pos_iff {α : Type} {f : α → Nat} : ∀ {l : List α}, 0 < (l.map f).sum ↔ ∃ a ∈ l, 0 < f a := by
  intro l
  induction l with
  | nil => simp
  | cons a l ih =>
    simp only [List.map_cons, List.sum_cons, List.mem_cons]
    constructor
    · intro h
      by_cases h1 : 0 < f a
      · exact ⟨a, .inl rfl, h1⟩
      · obtain ⟨b, h2, h3⟩ := ih.1 (by omega)
        exact ⟨b, .inr h2, h3⟩
    · rintro ⟨b, rfl | h1, h2⟩
      · omega
      · have := ih.2 ⟨b, h1, h2⟩
        omega

theorem T.cover_pos {x : Nat} : ∀ {t : T}, 0 < t.cover x → ∃ q n pfx big ch, At t q (.node n pfx big ch) ∧ n ≤ x ∧ x < n + nodeSize pfx big ch := by
  intro t
  induction t with
  | empty => intro h; exact absurd h (by simp [T.cover])
  | leaf => intro h; exact absurd h (by simp [T.cover])
  | node n pfx big ch ih =>
    intro h
    simp only [T.cover] at h
    split at h
    · rename_i hx
      exact ⟨[], n, pfx, big, ch, .here _, hx.1, hx.2⟩
    · have h' : 0 < sumB fun c => (ch c).cover x := by omega
      obtain ⟨c, hc⟩ : ∃ c, 0 < (ch c).cover x := by
        apply Classical.byContradiction
        intro hn
        have : ∀ c, (ch c).cover x = 0 := fun c => Nat.eq_zero_of_not_pos fun h => hn ⟨c, h⟩
        rw [sumB_congr this, sumB_zero] at h'
        omega
      obtain ⟨q, n', pfx', big', ch', h1, h2, h3⟩ := ih c hc
      exact ⟨pfx ++ c :: q, n', pfx', big', ch', .down h1, h2, h3⟩

theorem inTree_iff {P : Key → Word → Prop} {st : St} {t : T} {N : Nat → Nat} (hc : CoreN P st t N) {x : Nat} :
    InTree st x ↔ 0 < t.cover x := by
  constructor
  · rintro ⟨w, h1, h2⟩
    obtain ⟨q, n, pfx, big, ch, b, hat, rfl, hocc⟩ := h1.tree hc
    obtain ⟨h3, h4⟩ := (hocc x).1 h2
    exact hat.cover_node h3 h4
  · intro h
    obtain ⟨q, n, pfx, big, ch, hat, h1, h2⟩ := T.cover_pos h
    obtain ⟨b, hb⟩ := reach_at hc hat rfl
    have hv := hc.view (b := b) hat
    refine ⟨_, ⟨hb, ?_, ?_⟩, hv.occupies_iff.2 ⟨h1, h2⟩⟩
    · rw [Ne, wordOf_eq_zero (Nat.le_trans st.baNext_le hc.nb) hv.inb]; simp
    · rw [isLeaf_wordOf (Nat.le_trans st.baNext_le hc.nb) hv.inb]; rfl

/-- The recycled part and the rest of the blocks in the free memory. -/
theorem freeCover_split (st : St) (x : Nat) : freeCover st x =
    ((List.range st.nalloc).map fun a => bumpCover (st.allocs a) x).sum +
    ((List.range st.nalloc).map fun a => recCover (fun _ => true) (st.allocs a).recycler x).sum +
    (if st.baNext * blockSlots ≤ x then 1 else 0) := by
  unfold freeCover freeP allocCover
  congr 1
  induction List.range st.nalloc with
  | nil => rfl
  | cons a l ih => simp only [List.map_cons, List.sum_cons]; omega

theorem inRest_iff {st : St} {x : Nat} : InRest st x ↔ 0 < ((List.range st.nalloc).map fun a => bumpCover (st.allocs a) x).sum := by
  rw [sum_pos_iff]
  constructor
  · rintro ⟨a, h1, h2⟩
    exact ⟨a, List.mem_range.2 h1, by unfold bumpCover; rw [if_pos h2]; omega⟩
  · rintro ⟨a, h1, h2⟩
    refine ⟨a, List.mem_range.1 h1, ?_⟩
    unfold bumpCover at h2
    split at h2
    · assumption
    · omega

theorem inRecycler_iff {st : St} {x : Nat} :
    InRecycler st x ↔ 0 < ((List.range st.nalloc).map fun a => recCover (fun _ => true) (st.allocs a).recycler x).sum := by
  rw [sum_pos_iff]
  unfold recCover listCover
  have hs : ∀ (it : Item) (n : Nat), 0 < segE (fun _ => true) it n x ↔ it.n ≤ x ∧ x < it.n + n := by
    intro it n
    show 0 < seg it.n n x ↔ _
    unfold seg
    split <;> simp_all
  constructor
  · rintro ⟨a, n, it, h1, h2, h3, h4⟩
    exact ⟨a, List.mem_range.2 h1, sum_pos_iff.2 ⟨n, List.mem_range.2 h2, sum_pos_iff.2 ⟨it, h3, (hs it n).2 h4⟩⟩⟩
  · rintro ⟨a, h1, h2⟩
    obtain ⟨n, h2, h3⟩ := sum_pos_iff.1 h2
    obtain ⟨it, h3, h4⟩ := sum_pos_iff.1 h3
    exact ⟨a, n, it, List.mem_range.1 h1, List.mem_range.1 h2, h3, (hs it n).1 h4⟩

theorem idle_pend {s : Sys} (h : ∀ a, s.proc a = .idle) (x : Nat) : s.pend x = 0 := by
  unfold Sys.pend
  exact sum_zero_nat fun a _ => by rw [h a]; rfl

/-! ## C50 -/

theorem RunIf.run {env : Env} {G : Sys → Act → Sys → Prop} {H : Sys → Act → Prop} (hG : ∀ s act s', G s act s' → H s act) {s : Sys} {σ : Spec}
    (h : RunIf env G s σ) : Run env H s σ := by
  induction h with
  | init n => exact .init n
  | reload _ hs ih => exact .reload ih hs
  | step _ h1 h2 h3 ih => exact .step ih h1 (hG _ _ _ h3) h2

theorem RunIf.whole {env : Env} (hlen : ∀ k, env.keys k → k.length ≤ 9) {s : Sys} {σ : Spec}
    (h : RunIf env (fun s act s' => Calm s act ∧ Thrifty s act s') s σ) : ∃ t seen, Inv env s σ t seen ∧ Whole 258 s t := by
  induction h with
  | init n =>
    refine ⟨_, _, new_inv env n, fun x _ => ?_⟩
    have : freeCover (Sys.new n).st x = 1 := freeCover_new n x
    omega
  | @reload s σ _ hs ih =>
    obtain ⟨t, seen, hI, hw⟩ := ih
    refine ⟨t, _, restore_inv hI hs, fun x hx => ?_⟩
    have e1 := hw x hx
    have e2 := restore_freeCover hs.ready x
    have e3 := idle_pend hs.idle x
    show 1 ≤ t.cover x + _ + freeCover s.st.restore x
    omega
  | step h0 h1 h2 h3 ih =>
    obtain ⟨t, seen, hI, hw⟩ := ih
    obtain ⟨k, hk⟩ := (h0.run (H := Calm) fun _ _ _ h => h.1).counted
    have ho := hk.owes (L := 8) hlen
    refine exec_whole hI hlen (S := 258) (by decide) (by decide) (fun a => ?_) h1 h3.1 h2 h3.2 hw
    have := ho a
    have e : 256 + prefixSlots 8 = 257 := by decide
    have e' : recyclerLen = 258 := rfl
    omega

/-- C50, for calm executions in which every call of `Finalize` returns true and no delete merges two nodes (both can lose memory). -/
theorem C50_no_memory_lost_partial {env : Env} (hlen : ∀ k, env.keys k → k.length ≤ 9) {s : Sys} {σ : Spec}
    (h : RunIf env (fun s act s' => Calm s act ∧ Thrifty s act s') s σ) (hidle : ∀ a, s.proc a = .idle) {x : Nat} (hx : Counts s.st x) :
    OneOf3 (InTree s.st x) (InRecycler s.st x) (InRest s.st x) := by
  obtain ⟨t, seen, hI, hw⟩ := h.whole hlen
  obtain ⟨h0, h1, h2⟩ := hx
  have e1 := hw x ⟨h0, h2⟩
  have e2 := hI.mem.core.sep x
  have e3 := freeCover_split s.st x
  rw [idle_pend hidle] at e1 e2
  rw [if_neg (by
    have : 0 < blockSlots := by decide
    have := (Nat.div_lt_iff_lt_mul this).1 h1
    omega)] at e3
  unfold OneOf3
  rw [inTree_iff hI.mem.core, inRecycler_iff, inRest_iff]
  omega

/-! ## Deciding the cases in a given state -/

/-- The words in the child slots of a node. -/
def slotWords (st : St) (w : Word) : List Word :=
  match st.nodeData (nodeAddr w) with
  | .ok d =>
    match skipPrefix st.mem d (nodePlen w) with
    | .ok (_, _, data) => (List.range (nodeCount w)).map fun i => st.mem (data.base + i)
    | _ => []
  | _ => []

theorem SlotOf.kid {st : St} {w : Word} {p : Nat} (h : SlotOf st w p) : st.mem p ∈ slotWords st w := by
  obtain ⟨d, plen, slots, data, i, h1, h2, h3, rfl⟩ := h
  unfold slotWords
  rw [h1]
  simp only
  rw [h2]
  exact List.mem_map.2 ⟨i, List.mem_range.2 h3, rfl⟩

/-- Whether a node has slot `x`. -/
def occupiesB (st : St) (w : Word) (x : Nat) : Bool :=
  match st.nodeData (nodeAddr w) with
  | .ok d =>
    match skipPrefix st.mem d (nodePlen w) with
    | .ok (_, _, data) => decide (nodeAddr w ≤ x) && decide (x < data.base + nodeCount w)
    | _ => false
  | _ => false

theorem Occupies.bool {st : St} {w : Word} {x : Nat} (h : Occupies st w x) : occupiesB st w x = true := by
  obtain ⟨d, plen, slots, data, h1, h2, h3, h4⟩ := h
  unfold occupiesB
  rw [h1]
  simp only
  rw [h2]
  simp [h3, h4]

/-- The words reached from `w` in fewer than the given number of steps. -/
def reached (st : St) : Nat → Word → List Word
  | 0, _ => []
  | n + 1, w => w :: if w == 0 || isLeaf w then [] else (slotWords st w).flatMap (reached st n)

/-- The words in `l` are all that can be reached from the root, and no node among them has slot `x`. -/
def outsideB (st : St) (l : List Word) (x : Nat) : Bool :=
  l.contains st.root && l.all fun w => w == 0 || isLeaf w || ((slotWords st w).all l.contains && !occupiesB st w x)

theorem outsideB_sound {st : St} {l : List Word} {x : Nat} (h : outsideB st l x = true) : ¬ InTree st x := by
  unfold outsideB at h
  rw [Bool.and_eq_true, List.contains_iff_mem, List.all_eq_true] at h
  have key : ∀ {w}, Reach st w → w ∈ l := by
    intro w hw
    induction hw with
    | root => exact h.1
    | @child w p _ h0 hl hs ih =>
      have h2 := h.2 _ ih
      simp only [beq_eq_false_iff_ne.2 h0, hl, Bool.false_or, Bool.and_eq_true, List.all_eq_true, List.contains_iff_mem] at h2
      exact h2.1 _ hs.kid
  rintro ⟨w, ⟨hr, h0, hl⟩, ho⟩
  have h2 := h.2 _ (key hr)
  simp [h0, hl, ho.bool] at h2

def inRecyclerB (st : St) (x : Nat) : Bool :=
  (List.range st.nalloc).any fun a => (List.range recyclerLen).any fun n => ((st.allocs a).recycler n).any fun it =>
    decide (it.n ≤ x) && decide (x < it.n + n)

theorem InRecycler.bool {st : St} {x : Nat} (h : InRecycler st x) : inRecyclerB st x = true := by
  obtain ⟨a, n, it, h1, h2, h3, h4, h5⟩ := h
  unfold inRecyclerB
  simp only [List.any_eq_true, List.mem_range, Bool.and_eq_true, decide_eq_true_eq]
  exact ⟨a, h1, n, h2, it, h3, h4, h5⟩

def inRestB (st : St) (x : Nat) : Bool :=
  (List.range st.nalloc).any fun a =>
    decide (((st.allocs a).offset + (st.allocs a).nextFree) / 8 ≤ x) && decide (x < (st.allocs a).offset / 8 + (blockSlots - 1))

theorem InRest.bool {st : St} {x : Nat} (h : InRest st x) : inRestB st x = true := by
  obtain ⟨a, h1, h2, h3⟩ := h
  unfold inRestB
  simp only [List.any_eq_true, List.mem_range, Bool.and_eq_true, decide_eq_true_eq]
  exact ⟨a, h1, h2, h3⟩

/-- Like `trace`, for a guard that also sees the next state. -/
def traceIf (l : List Key) (g : Sys → Act → Sys → Bool) : Sys → Spec → List Act → Option (Sys × Spec)
  | s, σ, [] => some (s, σ)
  | s, σ, act :: acts =>
    if allowedB l s act then
      match exec (fun v => l.getD (v.toNat % l.length) []) s act with
      | some (.ok (s', ev)) => if g s act s' then traceIf l g s' (σ.next ev) acts else none
      | _ => none
    else none

theorem RunIf.trace {l h} {G : Sys → Act → Sys → Prop} {g : Sys → Act → Sys → Bool}
    (hg : ∀ s σ act s', RunIf (Env.ofList l h) G s σ → g s act s' = true → G s act s') :
    ∀ {acts s σ s' σ'}, RunIf (Env.ofList l h) G s σ → traceIf l g s σ acts = some (s', σ') → RunIf (Env.ofList l h) G s' σ'
  | [], s, σ, s', σ', hr, ht => by
    simp only [traceIf, Option.some.injEq, Prod.mk.injEq] at ht
    obtain ⟨rfl, rfl⟩ := ht
    exact hr
  | act :: acts, s, σ, s', σ', hr, ht => by
    simp only [traceIf] at ht
    split at ht
    · rename_i hc
      split at ht
      · rename_i s1 ev he
        split at ht
        · rename_i hgb
          exact RunIf.trace hg (.step hr (allowedB_sound hc) he (hg _ _ _ _ hr hgb)) ht
        · cases ht
      · cases ht
    · cases ht

/-- "aa", "ab" and "b" are inserted, and "b" is deleted, which merges two nodes. -/
def mergeActs : List Act :=
  [.block] ++ putActs 0 [97, 97] 0 2 ++ putActs 0 [97, 98] 1 2 ++ putActs 0 [98] 2 6 ++ delActs 0 [98] 9

def lostB (s : Sys) (x : Nat) : Bool :=
  decide (s.st.nalloc = 1) && (match s.proc 0 with | .idle => true | _ => false) && decide (x / blockSlots < s.st.baNext) &&
    outsideB s.st (reached s.st 3 s.st.root) x && !inRecyclerB s.st x && !inRestB s.st x

theorem RunIf.mono {env : Env} {G H : Sys → Act → Sys → Prop} (hG : ∀ s act s', G s act s' → H s act s') {s : Sys} {σ : Spec}
    (h : RunIf env G s σ) : RunIf env H s σ := by
  induction h with
  | init n => exact .init n
  | reload _ hs ih => exact .reload ih hs
  | step _ h1 h2 h3 ih => exact .step ih h1 h2 (hG _ _ _ h3)

theorem merge_lost : (match traceIf leakKeys (fun s act _ => calmB s act) (Sys.new 1) .init mergeActs with
    | some (s, _) => lostB s 6
    | none => false) = true := by
  decide +kernel

/-- `C50_statement` does not hold: the delete of "b" merges two nodes, and the memory of the upper one (slots 6 and 7) is lost. -/
theorem C50_does_not_hold : ¬ C50_statement := by
  intro hst
  have hm := merge_lost
  split at hm
  · rename_i s σ ht
    have hr : RunIf leakEnv (fun s act _ => Calm s act) s σ := RunIf.trace (h := leakKeys_good)
      (fun s σ act _ hr hb => calm_sound s σ act (hr.run (H := Calm) fun _ _ _ h => h) hb) (.init 1) ht
    obtain ⟨t, seen, hI⟩ := (hr.run (H := Calm) fun _ _ _ h => h).inv
    unfold lostB at hm
    simp only [Bool.and_eq_true, decide_eq_true_eq, Bool.not_eq_true'] at hm
    obtain ⟨⟨⟨⟨⟨hn, hp⟩, hb⟩, ho⟩, hrec⟩, hrest⟩ := hm
    have hidle : ∀ a, s.proc a = .idle := by
      intro a
      by_cases ha : a < s.st.nalloc
      · obtain rfl : a = 0 := by omega
        revert hp
        cases s.proc 0 <;> simp
      · exact hI.mem.off a (by omega)
    have := hst leakEnv (fun k hk => Nat.le_trans (leakEnv_len hk) (by omega)) s σ (hr.mono fun _ _ _ _ => trivial) hidle 6 ⟨by omega, hb, by decide⟩
    have h1 := outsideB_sound ho
    have h2 : ¬ InRecycler s.st 6 := fun h => by rw [h.bool] at hrec; cases hrec
    have h3 : ¬ InRest s.st 6 := fun h => by rw [h.bool] at hrest; cases hrest
    unfold OneOf3 at this
    simp [h1, h2, h3] at this
  · cases hm

/-! ## An example -/

def thriftyB (s : Sys) (act : Act) (s' : Sys) : Bool :=
  let ok := fun a =>
    (match s'.proc a with | .upd (.tail b _) => b | .del (.tail b _) => b | _ => true) &&
    (match s.proc a with
      | .del (.held cur) => decide (cur.op.kind ≠ .replaceNodeWithNode)
      | .delB cur _ => decide (cur.op.kind ≠ .replaceNodeWithNode)
      | _ => true)
  match act with
  | .commit a => ok a
  | .publish a _ => ok a
  | _ => true

theorem thriftyB_sound {s s' : Sys} {act : Act} (h : thriftyB s act s' = true) : Thrifty s act s' := by
  intro a ha
  have h' : ((match s'.proc a with | .upd (.tail b _) => b | .del (.tail b _) => b | _ => true) &&
    (match s.proc a with
      | .del (.held cur) => decide (cur.op.kind ≠ .replaceNodeWithNode)
      | .delB cur _ => decide (cur.op.kind ≠ .replaceNodeWithNode)
      | _ => true)) = true := by
    rcases ha with rfl | ⟨v, rfl⟩ <;> exact h
  rw [Bool.and_eq_true] at h'
  refine ⟨fun b tl hb => ?_, fun cur hc => ?_⟩
  · rcases hb with hb | hb <;> (rw [hb] at h'; exact h'.1)
  · rcases hc with hc | ⟨cm, hc⟩ <;> (rw [hc] at h'; simpa using h'.2)

theorem demo_whole : (match traceIf demoKeys (fun s act s' => calmB s act && thriftyB s act s') (Sys.new 2) .init demoActs with
    | some (s, _) => decide (s.st.nalloc = 2) && (match s.proc 0, s.proc 1 with | .idle, .idle => true | _, _ => false) && decide (s.st.baNext = 2) &&
        !inRecyclerB s.st 262144 && !inRestB s.st 262144
    | none => false) = true := by
  decide +kernel

/-- After the operations of `demoActs` slots 1 and 262144 count, and since the second is neither recycled nor in the rest of a block, it belongs to a node
of the tree. -/
example : ∃ s σ, RunIf demoEnv (fun s act s' => Calm s act ∧ Thrifty s act s') s σ ∧ (∀ a, s.proc a = .idle) ∧ Counts s.st 1 ∧
    Counts s.st 262144 ∧ InTree s.st 262144 := by
  have hm := demo_whole
  split at hm
  · rename_i s σ ht
    have hr : RunIf demoEnv (fun s act s' => Calm s act ∧ Thrifty s act s') s σ := RunIf.trace (h := demoKeys_good)
      (fun s σ act _ hr hb => by
        rw [Bool.and_eq_true] at hb
        exact ⟨calm_sound s σ act (hr.run (H := Calm) fun _ _ _ h => h.1) hb.1, thriftyB_sound hb.2⟩) (.init 2) ht
    obtain ⟨t, seen, hI⟩ := (hr.run (H := Calm) fun _ _ _ h => h.1).inv
    simp only [Bool.and_eq_true, decide_eq_true_eq, Bool.not_eq_true'] at hm
    obtain ⟨⟨⟨⟨hn, hp⟩, hb⟩, hrec⟩, hrest⟩ := hm
    have hidle : ∀ a, s.proc a = .idle := by
      intro a
      by_cases ha : a < s.st.nalloc
      · have : a = 0 ∨ a = 1 := by omega
        revert hp
        rcases this with rfl | rfl <;> cases s.proc 0 <;> cases s.proc 1 <;> simp
      · exact hI.mem.off a (by omega)
    have hx : Counts s.st 262144 := ⟨by omega, by rw [hb]; decide, by decide⟩
    have hlen : ∀ k, demoEnv.keys k → k.length ≤ 9 := by
      intro k hk
      have : k ∈ demoKeys := hk
      simp only [demoKeys, List.mem_cons, List.not_mem_nil, or_false] at this
      rcases this with rfl | rfl | rfl | rfl <;> simp
    refine ⟨s, σ, hr, hidle, ⟨by omega, by rw [hb]; decide, by decide⟩, hx, ?_⟩
    rcases C50_no_memory_lost_partial hlen hr hidle hx with h | h | h
    · exact h.1
    · rw [h.2.1.bool] at hrec; cases hrec
    · rw [h.2.2.bool] at hrest; cases hrest
  · cases hm

end Radix
