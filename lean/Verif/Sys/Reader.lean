import Verif.Sys.Facts
import Verif.Sys.Memory
import Verif.CountProof
import Verif.ReadersProof
/-!
# Readers that load word by word while other operations run
-/
set_option autoImplicit false
namespace Radix
open T

/-- A state in which the operation of `a` is running; `S`: the trees current at some moment since that began. -/
structure World (env : Env) (a : Nat) (s : Sys) (S : T → Prop) : Prop where
  inv : ∃ σ t seen, Inv env s σ t seen ∧ ∀ x, seen a x ↔ S x
  act : (s.proc a).active = true
  nb : 0 < s.st.nblocks

/-- Slot `x` is the first slot of the memory, or belongs to one of the trees. -/
def Guarded (S : T → Prop) (x : Nat) : Prop := x = 0 ∨ ∃ t, S t ∧ 0 < t.cover x

/-- The slot belongs to one of the trees or, if `L`, comes right after such a slot. -/
def Near (L : Prop) (S : T → Prop) (x : Nat) : Prop := Guarded S x ∨ (L ∧ ∃ y, x = y + 1 ∧ Guarded S y)

/-- Run the program while other operations run, too: every load is from a slot of a tree seen (or, if `L`, the slot after one), the only
errors are in `E`, and the result satisfies `Q`.  `S`: the trees seen so far; there may be more at every load. -/
def Safe (env : Env) (a : Nat) (L : Prop) (E : Panic → Prop) {α : Type} (Q : (T → Prop) → α → Prop) : Prog α → (T → Prop) → Prop
  | .ret (.ok v), S => Q S v
  | .ret (.error e), _ => E e
  | .root k, S => ∀ s S', World env a s S' → (∀ x, S x → S' x) → Safe env a L E Q (k s.st.root) S'
  | .blocks k, S => ∀ s S', World env a s S' → (∀ x, S x → S' x) → Safe env a L E Q (k s.st.nblocks) S'
  | .load x k, S => ∀ s S', World env a s S' → (∀ x, S x → S' x) → Near L S' x ∧ Safe env a L E Q (k (s.st.mem x)) S'

section
variable {env : Env} {a : Nat} {L : Prop} {E : Panic → Prop} {α β : Type}

theorem Safe.bind {Q : (T → Prop) → α → Prop} {R : (T → Prop) → β → Prop} {f : α → Prog β} : ∀ {p : Prog α} {S : T → Prop},
    Safe env a L E Q p S → (∀ S' v, (∀ x, S x → S' x) → Q S' v → Safe env a L E R (f v) S') → Safe env a L E R (p >>= f) S
  | .ret (.ok v), S, h, hf => hf S v (fun _ h => h) h
  | .ret (.error e), S, h, _ => h
  | .root k, S, h, hf => fun s S' hw hS => Safe.bind (p := k s.st.root) (h s S' hw hS) fun S2 v h2 hq => hf S2 v (fun x hx => h2 x (hS x hx)) hq
  | .blocks k, S, h, hf => fun s S' hw hS => Safe.bind (p := k s.st.nblocks) (h s S' hw hS) fun S2 v h2 hq => hf S2 v (fun x hx => h2 x (hS x hx)) hq
  | .load y k, S, h, hf => fun s S' hw hS => ⟨(h s S' hw hS).1,
      Safe.bind (p := k (s.st.mem y)) (h s S' hw hS).2 fun S2 v h2 hq => hf S2 v (fun x hx => h2 x (hS x hx)) hq⟩

theorem Safe.mono {Q R : (T → Prop) → α → Prop} {p : Prog α} {S : T → Prop} (h : Safe env a L E Q p S)
    (hqr : ∀ S' v, (∀ x, S x → S' x) → Q S' v → R S' v) : Safe env a L E R p S := by
  have := Safe.bind (R := R) (f := fun v => .ret (.ok v)) h fun S' v h1 h2 => hqr S' v h1 h2
  have e : ∀ p : Prog α, (p >>= fun v => Prog.ret (.ok v)) = p := by
    intro p
    show Prog.bind p _ = p
    induction p with
    | ret r => cases r <;> rfl
    | root k ih => simp only [Prog.bind]; congr 1; funext w; exact ih w
    | blocks k ih => simp only [Prog.bind]; congr 1; funext w; exact ih w
    | load x k ih => simp only [Prog.bind]; congr 1; funext w; exact ih w
  rwa [e] at this

theorem Safe.errors {E' : Panic → Prop} {Q : (T → Prop) → α → Prop} (hE : ∀ e, E e → E' e) : ∀ {p : Prog α} {S : T → Prop},
    Safe env a L E Q p S → Safe env a L E' Q p S
  | .ret (.ok v), S, h => h
  | .ret (.error e), S, h => hE e h
  | .root k, S, h => fun s S' hw hS => Safe.errors hE (h s S' hw hS)
  | .blocks k, S, h => fun s S' hw hS => Safe.errors hE (h s S' hw hS)
  | .load y k, S, h => fun s S' hw hS => ⟨(h s S' hw hS).1, Safe.errors hE (h s S' hw hS).2⟩

theorem Safe.ok {Q : (T → Prop) → α → Prop} {v : α} {S : T → Prop} (h : Q S v) : Safe env a L E Q (pure v) S := h

theorem Safe.retOk {Q : (T → Prop) → α → Prop} {v : α} {r : Res α} {S : T → Prop} (hr : r = .ok v) (h : Q S v) : Safe env a L E Q (.ret r) S := by
  subst hr; exact h

/-! ## Nodes -/

/-- The node at address `n` was in the tree, at path `q`, at some moment. -/
def InS (S : T → Prop) (q : Key) (n : Nat) (pfx : List UInt8) (big : Bool) (ch : UInt8 → T) : Prop :=
  ∃ t, S t ∧ At t q (.node n pfx big ch)

theorem InS.mono {S S' : T → Prop} {q n pfx big ch} (h : InS S q n pfx big ch) (hS : ∀ x, S x → S' x) : InS S' q n pfx big ch := by
  obtain ⟨t, h1, h2⟩ := h; exact ⟨t, hS t h1, h2⟩

/-- Where the children of a node are. -/
def kidSlice (n : Nat) (pfx : List UInt8) : Slice := ⟨n + prefixSlots pfx.length, blockSlots - n % blockSlots - prefixSlots pfx.length⟩

theorem SameKids.slotsOf {big : Bool} {ch ch' : UInt8 → T} (h : SameKids big ch ch') : slotsOf big ch' = slotsOf big ch := by
  unfold Radix.slotsOf
  cases big with
  | true => rfl
  | false => simp only [Bool.false_eq_true, if_false]; rw [h.present]

section
variable {s : Sys} {S S' : T → Prop} (hw : World env a s S')
include hw

theorem World.ok {t : T} (h : S' t) : SeenOK env.P s.st (s.st.resv a) t := by
  obtain ⟨⟨σ, t0, seen, hI, hS⟩, hact, _⟩ := hw
  exact hI.mem.ok a t hact ((hS t).2 h)

theorem World.view {q n pfx big ch} (h : InS S q n pfx big ch) (hS : ∀ x, S x → S' x) :
    ∃ ch', SameKids big ch ch' ∧ (∀ b, View env.P s.st.baNext s.st.mem (wordOf b (.node n pfx big ch')) q n pfx big ch') ∧
      ∃ t1, S' t1 ∧ At t1 q (.node n pfx big ch') := by
  obtain ⟨⟨σ, t0, seen, hI, hS'⟩, hact, _⟩ := hw
  obtain ⟨t, h1, h2⟩ := h
  obtain ⟨ch', t1, e1, e2, e3, e4⟩ := hI.lookAt hact ((hS' t).2 (hS t h1)) h2
  exact ⟨ch', e1, e2, t1, (hS' _).1 e3, e4⟩

theorem World.guarded {q n pfx big ch x} (h : InS S' q n pfx big ch) (h1 : n ≤ x) (h2 : x < n + nodeSize pfx big ch) : Guarded S' x := by
  obtain ⟨t, h3, h4⟩ := h
  exact .inr ⟨t, h3, h4.cover_node h1 h2⟩

/-- The root. -/
theorem World.root : ∃ t, S' t ∧ s.st.root = rootWord t ∧ t.WF env.P [] ∧ t.InBlocks s.st.baNext ∧ s.st.baNext ≤ maxBlockCount := by
  obtain ⟨⟨σ, t0, seen, hI, hS'⟩, hact, _⟩ := hw
  exact ⟨t0, (hS' _).1 (hI.mem.now a hact), hI.mem.core.root, hI.mem.core.wf, hI.mem.core.inb, hI.mem.core.bn⟩

theorem World.zero : s.st.mem 0 = 0 := by
  obtain ⟨⟨σ, t0, seen, hI, hS'⟩, hact, _⟩ := hw
  exact hI.mem.core.zero
end

/-- The fields of a reference to a node that was in the tree. -/
structure Fields (raw : Word) (n : Nat) (pfx : List UInt8) (big : Bool) (ch : UInt8 → T) : Prop where
  addr : nodeAddr raw = n
  plen : nodePlen raw = min pfx.length 255
  count : nodeCount raw = cnt big ch
  big_iff : cnt big ch ≥ fullAllocFrom ↔ big = true
  small : big = false → 2 ≤ cnt big ch
  lt : pfx.length < 2 ^ 64
  fits : prefixSlots pfx.length + cnt big ch ≤ blockSlots - n % blockSlots

theorem Fields.of_view {P nb m raw q n pfx big ch} (h : View P nb m raw q n pfx big ch) : Fields raw n pfx big ch :=
  ⟨h.addr, h.plen, h.count, h.cnt_big_iff, fun hb => by
    have := (h.wf.2.1 hb).1
    subst hb
    simpa [cnt] using this, h.pfx_lt, h.fits⟩

/-- The key was stored at every moment. -/
def Always (S : T → Prop) (k : Key) : Prop := ∀ t, S t → ∃ v, t.Has k v

/-- The pair was stored at some moment. -/
def Once (S : T → Prop) (k : Key) (v : Word) : Prop := ∃ t, S t ∧ t.Has k v

theorem Always.anti {S S' : T → Prop} {k : Key} (h : Always S' k) (hS : ∀ x, S x → S' x) : Always S k := fun t ht => h t (hS t ht)

theorem Once.mono {S S' : T → Prop} {k : Key} {v : Word} (h : Once S k v) (hS : ∀ x, S x → S' x) : Once S' k v := by
  obtain ⟨t, h1, h2⟩ := h; exact ⟨t, hS t h1, h2⟩

/-- A reference to a node that was in the tree, and its fields. -/
structure Ref (S : T → Prop) (raw : Word) (q : Key) (n : Nat) (pfx : List UInt8) (big : Bool) (ch : UInt8 → T) : Prop where
  inS : InS S q n pfx big ch
  fields : Fields raw n pfx big ch
  leaf : isLeaf raw = false
  ne : raw ≠ 0
  covers : ∀ k, Always S k → q <+: k → ∃ c ∈ slotsOf big ch, q ++ pfx ++ [c] <+: k

theorem Ref.mono {S S' : T → Prop} {raw q n pfx big ch} (h : Ref S raw q n pfx big ch) (hS : ∀ x, S x → S' x) : Ref S' raw q n pfx big ch :=
  ⟨h.inS.mono hS, h.fields, h.leaf, h.ne, fun k hk => h.covers k (hk.anti hS)⟩

theorem World.under {s : Sys} {S' : T → Prop} (hw : World env a s S') {t t' : T} {q k : Key} (ht : S' t) (hat : At t q t') (hk : Always S' k)
    (hq : q <+: k) : ∃ v, t'.Has k v := by
  obtain ⟨v, hv⟩ := hk t ht
  exact ⟨v, hat.has_of_prefix (hw.ok ht).wf hv (by simpa using hq)⟩

theorem Ref.of_seen {s : Sys} {S' : T → Prop} (hw : World env a s S') {b : UInt8} {q n pfx big ch}
    (h : InS S' q n pfx big ch) : Ref S' (wordOf b (.node n pfx big ch)) q n pfx big ch := by
  obtain ⟨ch', e1, e2, _⟩ := hw.view h fun _ h => h
  have hv := e2 b
  have e : wordOf b (.node n pfx big ch) = wordOf b (.node n pfx big ch') := by simp only [wordOf]; rw [e1.cnt]
  have hf := Fields.of_view hv
  have ec := e1.cnt
  rw [← e] at hf
  refine ⟨h, ⟨hf.addr, hf.plen, by rw [hf.count, ec], by rw [← ec]; exact hf.big_iff, by rw [← ec]; exact hf.small, hf.lt,
    by rw [← ec]; exact hf.fits⟩, ?_, ?_, ?_⟩
  · rw [e, isLeaf_wordOf hv.hnb hv.inb]; rfl
  · rw [e, ne_eq, wordOf_eq_zero hv.hnb hv.inb]; simp
  · intro k hk hq
    obtain ⟨t, h1, h2⟩ := h
    obtain ⟨v, hv⟩ := hw.under h1 h2 hk hq
    obtain ⟨c, rest, hr, hc⟩ := has_child (q := q) (by simpa using h2.wf (hw.ok h1).wf) hv
    refine ⟨c, mem_slotsOf.2 (.inr ?_), ⟨rest, by rw [hr]; simp⟩⟩
    cases hck : ch c with
    | empty => rw [hck] at hc; exact hc.elim
    | leaf => rfl
    | node => rfl

/-- What a reader knows about the child at path `p` from the word loaded. -/
inductive Obs (S : T → Prop) (p : Key) (w : Word) : Prop
  | none (h : w = 0) (no : ∀ k, Always S k → ¬ p <+: k)
  | leaf (k : Key) (v : Word) (l : isLeaf w = true) (hv : leafValue w = trunc55 v) (hp : p <+: k) (st : Once S k v)
      (only : ∀ k', Always S k' → p <+: k' → k' = k)
  | node (n : Nat) (pfx : List UInt8) (big : Bool) (ch : UInt8 → T) (r : Ref S w p n pfx big ch)

theorem Obs.mono {S S' : T → Prop} {p w} (h : Obs S p w) (hS : ∀ x, S x → S' x) : Obs S' p w := by
  cases h with
  | none h no => exact .none h fun k hk => no k (hk.anti hS)
  | leaf k v l hv hp st only => exact .leaf k v l hv hp (st.mono hS) fun k' hk => only k' (hk.anti hS)
  | node n pfx big ch r => exact .node n pfx big ch (r.mono hS)

theorem Obs.of_at {s : Sys} {S' : T → Prop} (hw : World env a s S') {t t' : T} {p : Key} (ht : S' t) (hat : At t p t') (b : UInt8) :
    Obs S' p (wordOf b t') := by
  cases t' with
  | empty =>
    refine .none rfl fun k hk hp => ?_
    obtain ⟨v, hv⟩ := hw.under ht hat hk hp
    exact hv
  | leaf k v =>
    have hwf := hat.wf (hw.ok ht).wf
    refine .leaf k v (isLeaf_buildLeaf ..) (leafValue_buildLeaf ..) (by simpa using hwf.1) ⟨t, ht, hat.has ⟨rfl, rfl⟩⟩ fun k' hk hp => ?_
    obtain ⟨v', hv'⟩ := hw.under ht hat hk hp
    exact hv'.1.symm
  | node n pfx big ch => exact .node n pfx big ch (Ref.of_seen hw ⟨t, ht, hat⟩)

section
variable {S : T → Prop} {raw : Word} {q : Key} {n : Nat} {pfx : List UInt8} {big : Bool} {ch : UInt8 → T} (hr : Ref S raw q n pfx big ch)
include hr

theorem safe_nodeData : Safe env a L E (fun _ d => d = ⟨n, blockSlots - n % blockSlots⟩) (nodeDataP (nodeAddr raw)) S := by
  intro s S' hw hS
  obtain ⟨ch', e1, e2, _⟩ := hw.view hr.inS hS
  have := (e2 0).inb.1.2.1
  have hb : s.st.baNext ≤ s.st.nblocks := s.st.baNext_le
  rw [hr.fields.addr]
  simp only
  rw [if_pos (by omega)]
  rfl

/-- A load from the node. -/
theorem safe_get {i : Nat} (hi : i < nodeSize pfx big ch) {Q : (T → Prop) → Word → Prop}
    (hQ : ∀ s S' ch', World env a s S' → (∀ x, S x → S' x) → SameKids big ch ch' →
      View env.P s.st.baNext s.st.mem (wordOf 0 (.node n pfx big ch')) q n pfx big ch' → InS S' q n pfx big ch' → Q S' (s.st.mem (n + i))) :
    Safe env a L E Q (.load (n + i) fun w => .ret (.ok w)) S := by
  intro s S' hw hS
  obtain ⟨ch', e1, e2, e3⟩ := hw.view hr.inS hS
  exact ⟨.inl (hw.guarded e3 (by omega) (by rw [e1.nodeSize]; omega)), hQ s S' ch' hw hS e1 (e2 0) e3⟩

theorem safe_getP {d : Slice} {j i : Nat} (hb : d.base + j = n + i) (hj : j < d.len) (hi : i < nodeSize pfx big ch) {Q : (T → Prop) → Word → Prop}
    (hQ : ∀ s S' ch', World env a s S' → (∀ x, S x → S' x) → SameKids big ch ch' →
      View env.P s.st.baNext s.st.mem (wordOf 0 (.node n pfx big ch')) q n pfx big ch' → InS S' q n pfx big ch' → Q S' (s.st.mem (n + i))) :
    Safe env a L E Q (d.getP j) S := by
  unfold Slice.getP
  rw [if_pos hj, hb]
  exact safe_get hr hi hQ

theorem safe_skip : Safe env a L E (fun _ r => r = (pfx.length, prefixSlots pfx.length, kidSlice n pfx))
    (skipPrefixP ⟨n, blockSlots - n % blockSlots⟩ (nodePlen raw)) S := by
  have hf := hr.fields.fits
  rw [hr.fields.plen]
  unfold skipPrefixP
  by_cases h0 : pfx.length = 0
  · rw [if_neg (by omega)]
    have : pfx = [] := List.length_eq_zero_iff.1 h0
    subst this
    rfl
  rw [if_pos (by omega)]
  by_cases hl : pfx.length ≥ 255
  · rw [if_pos (by omega)]
    have hp : prefixSlots pfx.length = (pfx.length + 15) / 8 := by unfold prefixSlots; rw [if_pos hl]; omega
    refine Safe.bind (Q := fun _ w => w = UInt64.ofNat pfx.length) (safe_getP hr (i := 0) rfl (by show 0 < blockSlots - n % blockSlots; omega)
      (by unfold nodeSize; omega) ?_) ?_
    · intro s S' ch' _ _ _ hv _
      have := hv.mem.pre
      unfold PrefixMem at this
      rw [if_pos hl] at this
      exact this.1
    · intro S' w _ hw
      subst hw
      rw [UInt64.toNat_ofNat', Nat.mod_eq_of_lt hr.fields.lt, ← hp]
      refine Safe.bind (Q := fun _ d => d = kidSlice n pfx) (Safe.retOk (v := kidSlice n pfx) ?_ rfl) ?_
      · unfold Slice.drop
        rw [if_pos (by show _ ≤ blockSlots - n % blockSlots; omega)]
        rfl
      · rintro S'' _ _ rfl; rfl
  · rw [if_neg (by omega), Nat.min_eq_left (by omega)]
    have hp : prefixSlots pfx.length = (pfx.length + 7) / 8 := by unfold prefixSlots; rw [if_neg hl]; rfl
    rw [← hp]
    refine Safe.bind (Q := fun _ d => d = kidSlice n pfx) (Safe.retOk (v := kidSlice n pfx) ?_ rfl) ?_
    · unfold Slice.drop
      rw [if_pos (by show _ ≤ blockSlots - n % blockSlots; omega)]
      rfl
    · rintro S'' _ _ rfl; rfl

omit hr in
theorem safe_loadWords {off : Nat} (hoff : off + (pfx.length + 7) / 8 ≤ nodeSize pfx big ch)
    (hpre : ∀ m, PrefixMem m n pfx → readBytes m (n + off) pfx.length = pfx) : ∀ (cnt i : Nat) {S : T → Prop}, Ref S raw q n pfx big ch → i + cnt = (pfx.length + 7) / 8 →
    Safe env a L E (fun _ ws => ws.length = cnt ∧ ∀ j b, j < cnt → b < 8 → (hb : 8 * (i + j) + b < pfx.length) → byteOf (ws.getD j 0) b = pfx[8 * (i + j) + b])
      (loadWords (n + off + i) cnt) S
  | 0, _, _, _, _ => ⟨rfl, fun j b h => by omega⟩
  | cnt + 1, i, S, hr, h => by
    intro s S' hw hS
    obtain ⟨ch', e1, e2, e3⟩ := hw.view hr.inS hS
    refine ⟨.inl (hw.guarded e3 (by omega) (by rw [e1.nodeSize]; omega)), ?_⟩
    have hm := hpre _ (e2 0).mem.pre
    refine Safe.bind (safe_loadWords hoff hpre cnt (i + 1) (hr.mono hS) (by omega)) ?_
    intro S2 ws _ ⟨hl, hws⟩
    refine ⟨by simp [hl], ?_⟩
    intro j b hj hb hlt
    cases j with
    | zero =>
      rw [List.getD_cons_zero]
      have : (readBytes s.st.mem (n + off) pfx.length)[8 * i + b]? = pfx[8 * i + b]? := by rw [hm]
      simp only [Nat.add_zero] at hlt ⊢
      rw [List.getElem?_eq_getElem hlt] at this
      unfold readBytes at this
      rw [List.getElem?_map, List.getElem?_range hlt] at this
      simp only [Option.map_some, Option.some.injEq] at this
      rw [← this]
      unfold byteAt
      rw [show (8 * i + b) / 8 = i by omega, show (8 * i + b) % 8 = b by omega]
    | succ j =>
      rw [List.getD_cons_succ, hws j b (by omega) hb (by omega)]
      congr 1; omega

theorem safe_words {off : Nat} (hoff : off + (pfx.length + 7) / 8 ≤ nodeSize pfx big ch)
    (hpre : ∀ m, PrefixMem m n pfx → readBytes m (n + off) pfx.length = pfx) :
    Safe env a L E (fun _ ws => bytesOfWords ws pfx.length = pfx) (loadWords (n + off) ((pfx.length + 7) / 8)) S := by
  refine (safe_loadWords hoff hpre _ 0 hr (by omega)).mono ?_
  rintro S' ws _ ⟨hl, h⟩
  apply List.ext_getElem
  · simp [bytesOfWords]
  · intro i h1 h2
    simp only [bytesOfWords, List.getElem_map, List.getElem_range]
    rw [h (i / 8) (i % 8) (by omega) (by omega) (by omega)]
    congr 1; omega

theorem safe_append (dst : List UInt8) : Safe env a L E (fun _ r => r = (dst ++ pfx, prefixSlots pfx.length))
    (appendPrefixP dst ⟨n, blockSlots - n % blockSlots⟩ (nodePlen raw)) S := by
  have hf := hr.fields.fits
  have hc : 2 ≤ cnt big ch := by
    cases hb : big with
    | false => rw [← hb]; exact hr.fields.small hb
    | true => simp [cnt]
  rw [hr.fields.plen]
  unfold appendPrefixP
  by_cases h0 : pfx.length = 0
  · rw [if_pos (by omega)]
    have : pfx = [] := List.length_eq_zero_iff.1 h0
    subst this
    simp only [List.append_nil]
    rfl
  rw [if_neg (by omega)]
  by_cases hl : pfx.length ≥ 255
  · rw [if_pos (by omega)]
    have hp : prefixSlots pfx.length = (pfx.length + 7) / 8 + 1 := by unfold prefixSlots; rw [if_pos hl]
    refine Safe.bind (Q := fun _ w => w = UInt64.ofNat pfx.length) (safe_getP hr (i := 0) rfl (by show 0 < blockSlots - n % blockSlots; omega)
      (by unfold nodeSize; omega) ?_) ?_
    · intro s S' ch' _ _ _ hv _
      have := hv.mem.pre
      unfold PrefixMem at this
      rw [if_pos hl] at this
      exact this.1
    · intro S' w hS hw
      subst hw
      simp only
      rw [UInt64.toNat_ofNat', Nat.mod_eq_of_lt hr.fields.lt]
      refine Safe.bind (Q := fun _ d => d = ⟨n + 1, blockSlots - n % blockSlots - 1⟩) (Safe.retOk (v := ⟨n + 1, blockSlots - n % blockSlots - 1⟩) ?_ rfl) ?_
      · unfold Slice.drop
        rw [if_pos (by show _ ≤ blockSlots - n % blockSlots; omega)]
      · rintro S2 _ hS2 rfl
        refine Safe.bind (Q := fun _ _ => True) (Safe.retOk (v := ()) (if_pos (by show 0 < blockSlots - n % blockSlots - 1; omega)) trivial) ?_
        intro S3 _ hS3 _
        refine Safe.bind (safe_words ((hr.mono hS).mono hS2 |>.mono hS3) (off := 1) (by unfold nodeSize; omega) ?_) ?_
        · intro m hm
          unfold PrefixMem at hm
          rw [if_pos hl] at hm
          exact hm.2
        · intro S4 ws _ hws
          show (_, _) = (_, _)
          rw [hws, hp]
          congr 1; omega
  · rw [if_neg (by omega), Nat.min_eq_left (by omega)]
    have hp : prefixSlots pfx.length = (pfx.length + 7) / 8 := by unfold prefixSlots; rw [if_neg hl]; rfl
    refine Safe.bind (Q := fun _ _ => True) (Safe.retOk (v := ()) (if_pos (by show 0 < blockSlots - n % blockSlots; omega)) trivial) ?_
    intro S3 _ hS3 _
    refine Safe.bind (safe_words (hr.mono hS3) (off := 0) (by unfold nodeSize; omega) ?_) ?_
    · intro m hm
      unfold PrefixMem at hm
      rw [if_neg hl] at hm
      exact hm
    · intro S4 ws _ hws
      show (_, _) = (_, _)
      rw [hws, hp]

/-- The load of a child. -/
theorem safe_kid {pre rest : List UInt8} {c : UInt8} (hs : slotsOf big ch = pre ++ c :: rest) :
    Safe env a L E (fun S' w => Obs S' (q ++ pfx ++ [c]) w ∧ (w ≠ 0 → keyByte w = c) ∧ (big = false → w ≠ 0)) ((kidSlice n pfx).getP pre.length) S := by
  have hc := cnt_split hs
  have hf := hr.fields.fits
  simp only [List.length_cons] at hc
  refine safe_getP hr (i := prefixSlots pfx.length + pre.length) (by simp only [kidSlice]; omega)
    (by simp only [kidSlice]; omega) (by unfold nodeSize; omega) ?_
  intro s S' ch' hw hS hk hv hin
  have hs' : slotsOf big ch' = pre ++ c :: rest := by rw [hk.slotsOf, hs]
  have hg := hv.getAt hs'
  have e : s.st.mem (n + (prefixSlots pfx.length + pre.length)) = wordOf c (ch' c) := by
    unfold Slice.get at hg
    simp only at hg
    rw [if_pos (by omega)] at hg
    rw [← Nat.add_assoc]
    exact Except.ok.inj hg
  rw [e]
  obtain ⟨t, ht, hat⟩ := hin
  refine ⟨Obs.of_at hw ht (hat.child c) c, fun h0 => ?_, fun hb h0 => ?_⟩
  · rw [ne_eq, hv.kid_zero] at h0
    exact hv.keyByte_kid c (present_eq_true.2 (by simpa using h0))
  · rw [hv.kid_zero] at h0
    have : c ∈ slotsOf big ch' := by rw [hs']; simp
    rcases mem_slotsOf.1 this with h | h
    · rw [hb] at h; cases h
    · rw [h] at h0; cases h0

end

end

end Radix
