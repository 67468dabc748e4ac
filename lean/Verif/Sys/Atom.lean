import Verif.Sys.ReadSearch
import Verif.Model.Fine
/-!
# Reading a node load by load gives what reading it at once, at the moment of the last load, gives
-/
set_option autoImplicit false
namespace Radix
open T

/-- However other operations run between the loads, the result satisfies `Q` for the state at the moment of the last load.  `l`: the state of the load
made last. -/
def Ends (env : Env) (a : Nat) {α : Type} (Q : St → Res α → Prop) : Prog α → Option St → (T → Prop) → Prop
  | .ret r, l, _ => ∃ st, l = some st ∧ Q st r
  | .root k, _, S => ∀ s S', World env a s S' → (∀ x, S x → S' x) → Ends env a Q (k s.st.root) (some s.st) S'
  | .blocks k, _, S => ∀ s S', World env a s S' → (∀ x, S x → S' x) → Ends env a Q (k s.st.nblocks) (some s.st) S'
  | .load x k, _, S => ∀ s S', World env a s S' → (∀ x, S x → S' x) → Ends env a Q (k (s.st.mem x)) (some s.st) S'

section
variable {env : Env} {a : Nat} {α β : Type}

/-- The last load was made in a state in which all of `S` had been seen. -/
def Last (env : Env) (a : Nat) (S : T → Prop) (l : Option St) : Prop := ∃ s S0, l = some s.st ∧ World env a s S0 ∧ ∀ x, S x → S0 x

theorem Ends.mono {Q : St → Res α → Prop} : ∀ {P : Prog α} {l : Option St} {S S' : T → Prop}, Ends env a Q P l S → (∀ x, S x → S' x) → Ends env a Q P l S'
  | .ret _, _, _, _, h, _ => h
  | .root _, _, _, _, h, hS => fun s S2 hw h2 => h s S2 hw fun x hx => h2 x (hS x hx)
  | .blocks _, _, _, _, h, hS => fun s S2 hw h2 => h s S2 hw fun x hx => h2 x (hS x hx)
  | .load _ _, _, _, _, h, hS => fun s S2 hw h2 => h s S2 hw fun x hx => h2 x (hS x hx)

/-- A first part with a result that does not depend on the moment. -/
theorem Ends.of_safe {L : Prop} {c : α} {Q : St → Res β → Prop} {g : α → Prog β} {S0 : T → Prop} : ∀ {P : Prog α} {l : Option St} {S : T → Prop},
    Safe env a L (fun _ => False) (fun _ v => v = c) P S → (∀ x, S0 x → S x) → Last env a S0 l →
    (∀ l' S', (∀ x, S x → S' x) → Last env a S0 l' → Ends env a Q (g c) l' S') → Ends env a Q (P >>= g) l S
  | .ret (.ok v), l, S, h, _, hl, hg => by
    have : v = c := h
    subst this
    exact hg l S (fun _ h => h) hl
  | .ret (.error e), _, _, h, _, _, _ => (h : False).elim
  | .root k, l, S, h, h0, hl, hg => fun s S' hw hS => Ends.of_safe (P := k s.st.root) (h s S' hw hS) (fun x hx => hS x (h0 x hx))
      ⟨s, S', rfl, hw, fun x hx => hS x (h0 x hx)⟩ fun l' S2 h2 => hg l' S2 fun x hx => h2 x (hS x hx)
  | .blocks k, l, S, h, h0, hl, hg => fun s S' hw hS => Ends.of_safe (P := k s.st.nblocks) (h s S' hw hS) (fun x hx => hS x (h0 x hx))
      ⟨s, S', rfl, hw, fun x hx => hS x (h0 x hx)⟩ fun l' S2 h2 => hg l' S2 fun x hx => h2 x (hS x hx)
  | .load y k, l, S, h, h0, hl, hg => fun s S' hw hS => Ends.of_safe (P := k (s.st.mem y)) (h s S' hw hS).2 (fun x hx => hS x (h0 x hx))
      ⟨s, S', rfl, hw, fun x hx => hS x (h0 x hx)⟩ fun l' S2 h2 => hg l' S2 fun x hx => h2 x (hS x hx)

/-- The first access: nothing need be known about the state before. -/
theorem Ends.of_nodeData {n : Nat} {c : Slice} {Q : St → Res β → Prop} {g : Slice → Prog β} {l : Option St} {S : T → Prop}
    (h : Safe env a True (fun _ => False) (fun _ v => v = c) (nodeDataP n) S)
    (hg : ∀ l' S', (∀ x, S x → S' x) → Last env a S l' → Ends env a Q (g c) l' S') : Ends env a Q (nodeDataP n >>= g) l S := by
  intro s S' hw hS
  exact Ends.of_safe (S0 := S) (h s S' hw hS) hS ⟨s, S', rfl, hw, hS⟩ fun l' S2 h2 hl => hg l' S2 (fun x hx => h2 x (hS x hx)) hl

theorem Ends.map {Q : St → Res α → Prop} {R : St → Res β → Prop} {g : α → β} (h : ∀ st r, Q st r → R st (r.map g)) :
    ∀ {P : Prog α} {l : Option St} {S : T → Prop}, Ends env a Q P l S → Ends env a R (P >>= fun v => .ret (.ok (g v))) l S
  | .ret (.ok v), l, S, ⟨st, h1, h2⟩ => ⟨st, h1, h st _ h2⟩
  | .ret (.error e), l, S, ⟨st, h1, h2⟩ => ⟨st, h1, h st _ h2⟩
  | .root k, l, S, hp => fun s S' hw hS => Ends.map h (P := k s.st.root) (hp s S' hw hS)
  | .blocks k, l, S, hp => fun s S' hw hS => Ends.map h (P := k s.st.nblocks) (hp s S' hw hS)
  | .load y k, l, S, hp => fun s S' hw hS => Ends.map h (P := k (s.st.mem y)) (hp s S' hw hS)

/-- Facts about the state of the last load. -/
theorem Ends.imp {Q R : St → Res α → Prop} {S0 : T → Prop} (h : ∀ s S1 r, World env a s S1 → (∀ x, S0 x → S1 x) → Q s.st r → R s.st r) :
    ∀ {P : Prog α} {l : Option St} {S : T → Prop}, Ends env a Q P l S → (∀ x, S0 x → S x) → Last env a S0 l → Ends env a R P l S
  | .ret r, l, S, ⟨st, h1, h2⟩, _, ⟨s, S1, e, hw, hS⟩ => by
    rw [h1] at e
    injection e with e
    subst e
    exact ⟨_, h1, h s S1 r hw hS h2⟩
  | .root k, l, S, hp, h0, _ => fun s S' hw hS => Ends.imp h (P := k s.st.root) (hp s S' hw hS) (fun x hx => hS x (h0 x hx))
      ⟨s, S', rfl, hw, fun x hx => hS x (h0 x hx)⟩
  | .blocks k, l, S, hp, h0, _ => fun s S' hw hS => Ends.imp h (P := k s.st.nblocks) (hp s S' hw hS) (fun x hx => hS x (h0 x hx))
      ⟨s, S', rfl, hw, fun x hx => hS x (h0 x hx)⟩
  | .load y k, l, S, hp, h0, _ => fun s S' hw hS => Ends.imp h (P := k (s.st.mem y)) (hp s S' hw hS) (fun x hx => hS x (h0 x hx))
      ⟨s, S', rfl, hw, fun x hx => hS x (h0 x hx)⟩

theorem Ends.ret {Q : St → Res α → Prop} {r : Res α} {S0 S : T → Prop} {l : Option St} (hl : Last env a S0 l)
    (h : ∀ s S1, World env a s S1 → (∀ x, S0 x → S1 x) → Q s.st r) : Ends env a Q (.ret r) l S := by
  obtain ⟨s, S1, e, hw, hS⟩ := hl
  exact ⟨s.st, e, h s S1 hw hS⟩

/-! ## The scan -/

theorem scan_hit {k : UInt8} {w : Word} (hw : keyByte w ≥ k) : ∀ {ws1 ws2 : List Word}, (∀ x ∈ ws1, ¬ keyByte x ≥ k) →
    scan k (ws1 ++ w :: ws2) = (ws1.length, w)
  | [], [], _ => by simp [scan, hw]
  | [], _ :: _, _ => by simp [scan, hw]
  | x :: xs, ws2, h => by
    have ih := scan_hit hw (ws1 := xs) (ws2 := ws2) fun y hy => h y (List.mem_cons_of_mem _ hy)
    have hx := h x (by simp)
    cases xs with
    | nil => simp only [List.nil_append] at ih; simp only [List.cons_append, List.nil_append, scan, if_neg hx, ih]; rfl
    | cons y ys => simp only [List.cons_append] at ih; simp only [List.cons_append, scan, if_neg hx, ih]; rfl

theorem scan_end {k : UInt8} {w : Word} (hw : ¬ keyByte w ≥ k) : ∀ {ws1 : List Word}, (∀ x ∈ ws1, ¬ keyByte x ≥ k) →
    scan k (ws1 ++ [w]) = (ws1.length + 1, w)
  | [], _ => by simp [scan, hw]
  | x :: xs, h => by
    have ih := scan_end hw (ws1 := xs) fun y hy => h y (List.mem_cons_of_mem _ hy)
    have hx := h x (by simp)
    cases xs with
    | nil => simp only [List.nil_append] at ih; simp only [List.cons_append, List.nil_append, scan, if_neg hx, if_neg hw]; rfl
    | cons y ys => simp only [List.cons_append] at ih; simp only [List.cons_append, scan, if_neg hx, ih]; rfl

section
variable {raw : Word} {q : Key} {n : Nat} {pfx : List UInt8} {big : Bool} {ch : UInt8 → T}

/-- The result is the one of scanning all children in this state. -/
def ScanEnd (n : Nat) (pfx : List UInt8) (c : Nat) (k : UInt8) (st : St) (r : Res (Nat × Word)) : Prop :=
  ∃ ws, Slice.words st.mem (kidSlice n pfx) c = .ok ws ∧ r = .ok (scan k ws)

theorem ends_scan (hb : big = false) {k : UInt8} : ∀ {cs pre : List UInt8} {w0 : Word} {S : T → Prop} {l : Option St}, Ref S raw q n pfx big ch →
    slotsOf big ch = pre ++ cs → (∀ c ∈ pre, ¬ c ≥ k) → (cs = [] → ∃ st, l = some st ∧ ScanEnd n pfx (cnt big ch) k st (.ok (pre.length, w0))) →
    Ends env a (ScanEnd n pfx (cnt big ch) k) (scanAt (kidSlice n pfx) k cs.length pre.length w0) l S
  | [], pre, w0, S, l, _, _, _, h0 => h0 rfl
  | c :: cs, pre, w0, S, l, hr, hs, hpre, _ => by
    show Ends env a _ ((kidSlice n pfx).getP pre.length >>= _) l S
    have hf := hr.fields.fits
    have hlen : cnt big ch = pre.length + cs.length + 1 := by rw [← length_slotsOf, hs]; simp; omega
    have hlt : pre.length < (kidSlice n pfx).len := by
      show _ < blockSlots - n % blockSlots - prefixSlots pfx.length
      omega
    unfold Slice.getP
    rw [if_pos hlt]
    intro s S' hw hS
    obtain ⟨ch', e1, e2, e3⟩ := hw.view hr.inS hS
    have hs' : slotsOf big ch' = pre ++ c :: cs := by rw [e1.slotsOf, hs]
    have hv := e2 0
    have hww := hv.wordsSmall hb
    rw [e1.cnt] at hww
    have hkw : kidWords ch' = (pre.map fun c => wordOf c (ch' c)) ++ wordOf c (ch' c) :: cs.map fun c => wordOf c (ch' c) := by
      have : kidsOf (present ch') = pre ++ c :: cs := by rw [← hs']; unfold slotsOf; rw [hb]; rfl
      unfold kidWords
      rw [this]; simp
    have hmem : s.st.mem ((kidSlice n pfx).base + pre.length) = wordOf c (ch' c) := by
      have hg := hv.getAt hs'
      unfold Slice.get at hg
      rw [if_pos (by simpa [kidSlice] using hlt)] at hg
      exact Except.ok.inj hg
    have hkb : ∀ c0 ∈ pre ++ c :: cs, keyByte (wordOf c0 (ch' c0)) = c0 := by
      intro c0 hc
      refine hv.keyByte_kid c0 (present_eq_true.2 ?_)
      rw [← hs'] at hc
      rcases mem_slotsOf.1 hc with h | h
      · rw [hb] at h; cases h
      · exact h
    have hpre' : ∀ x ∈ pre.map (fun c => wordOf c (ch' c)), ¬ keyByte x ≥ k := by
      intro x hx
      obtain ⟨c0, h1, rfl⟩ := List.mem_map.1 hx
      rw [hkb c0 (by simp [h1])]
      exact hpre c0 h1
    rw [hmem]
    show Ends env a _ (if keyByte (wordOf c (ch' c)) ≥ k then _ else _) _ _
    rw [hkb c (by simp)]
    by_cases hk : c ≥ k
    · rw [if_pos hk]
      refine ⟨s.st, rfl, _, hww, ?_⟩
      rw [hkw, scan_hit (by rw [hkb c (by simp)]; exact hk) hpre']
      simp
    · rw [if_neg hk]
      have ih := ends_scan hb (k := k) (cs := cs) (pre := pre ++ [c]) (w0 := wordOf c (ch' c)) (l := some s.st) (hr.mono hS) (by rw [hs]; simp)
        (by
          intro c0 hc0
          rcases List.mem_append.1 hc0 with h | h
          · exact hpre c0 h
          · simp only [List.mem_singleton] at h; subst h; exact hk)
        (by
          intro hcs
          refine ⟨s.st, rfl, _, hww, ?_⟩
          subst hcs
          rw [hkw, List.map_nil, scan_end (by rw [hkb c (by simp)]; exact hk) hpre']
          simp)
      rw [List.length_append, List.length_singleton] at ih
      exact ih

/-- The slot of a 256-slot node. -/
theorem ends_slot (hb : big = true) (k : UInt8) {S : T → Prop} {l : Option St} (hr : Ref S raw q n pfx big ch) :
    Ends env a (fun st r => r = Slice.get st.mem (kidSlice n pfx) k.toNat) ((kidSlice n pfx).getP k.toNat) l S := by
  have hf := hr.fields.fits
  have hk := k.toNat_lt
  have hc : cnt big ch = 256 := by simp [cnt, hb]
  have hlt : k.toNat < (kidSlice n pfx).len := by
    show _ < blockSlots - n % blockSlots - prefixSlots pfx.length
    omega
  unfold Slice.getP
  rw [if_pos hlt]
  intro s S' hw hS
  exact ⟨s.st, rfl, by show _ = Slice.get _ _ _; unfold Slice.get; rw [if_pos hlt]⟩

/-! ## The visit of an update -/

theorem childrenU_eq {m : Mem} {op : UpdOp} {data : Slice} : childrenU m op data = (keyAt op.key op.depth).bind fun k =>
    if op.count ≥ fullAllocFrom then (Slice.get m data k.toNat).map (fun a => { op with k := k }.slot256 (data.base + k.toNat) a)
    else (Slice.words m data op.count).map (fun ws => { op with k := k }.kid data.base (scan k ws).1 (scan k ws).2) := by
  unfold childrenU UpdOp.slot256 UpdOp.kid
  simp only [bind, Except.bind, pure, Except.pure]
  cases keyAt op.key op.depth with
  | error e => rfl
  | ok k =>
    simp only
    by_cases hc : op.count ≥ fullAllocFrom
    · rw [if_pos hc, if_pos hc]
      cases Slice.get m data k.toNat with
      | error e => rfl
      | ok w =>
        simp only [Except.map]
        by_cases h0 : w = 0
        · rw [if_pos h0, if_pos h0]
        · rw [if_neg h0, if_neg h0]
          by_cases h1 : isLeaf w = true
          · rw [if_pos h1, if_pos h1]
          · rw [if_neg h1, if_neg h1]
    · rw [if_neg hc, if_neg hc]
      cases Slice.words m data op.count with
      | error e => rfl
      | ok ws =>
        simp only [Except.map]
        by_cases h0 : keyByte (scan k ws).2 = k
        · rw [if_pos h0, if_pos h0]
          by_cases h1 : isLeaf (scan k ws).2 = true
          · rw [if_pos h1, if_pos h1]
          · rw [if_neg h1, if_neg h1]
        · rw [if_neg h0, if_neg h0]

theorem ends_childrenU {op : UpdOp} {S0 S : T → Prop} {l : Option St} (hr : Ref S raw q n pfx big ch) (hc : op.count = cnt big ch)
    (hl : Last env a S0 l) : Ends env a (fun st r => r = childrenU st.mem op (kidSlice n pfx)) (childrenUP op (kidSlice n pfx)) l S := by
  have hf := hr.fields.fits
  unfold childrenUP
  simp only [childrenU_eq]
  cases hk : keyAt op.key op.depth with
  | error e => exact Ends.ret hl fun s S1 _ _ => rfl
  | ok k =>
    show Ends env a _ (if op.count ≥ fullAllocFrom then _ else _) l S
    simp only [bind, Except.bind]
    by_cases hb : big = true
    · have hge : op.count ≥ fullAllocFrom := by rw [hc]; exact hr.fields.big_iff.2 hb
      rw [if_pos hge]
      simp only [if_pos hge]
      exact Ends.map (fun st r h => by rw [h]) (ends_slot hb k hr)
    · have hb' : big = false := by simpa using hb
      have hge : ¬ op.count ≥ fullAllocFrom := by rw [hc, hr.fields.big_iff]; exact hb
      rw [if_neg hge]
      simp only [if_neg hge]
      have hck : (kidSlice n pfx).checkP op.count = .ret (.ok ()) := by
        unfold Slice.checkP
        rw [if_pos (by rw [hc]; show _ ≤ blockSlots - n % blockSlots - prefixSlots pfx.length; omega)]
      rw [hck]
      show Ends env a _ (scanAt (kidSlice n pfx) k op.count 0 0 >>= _) l S
      have h2 := hr.fields.small hb'
      have hlen := length_slotsOf big ch
      have := ends_scan (env := env) (a := a) hb' (k := k) (cs := slotsOf big ch) (pre := []) (w0 := 0) (l := l) hr rfl (by simp)
        (fun h => by rw [h] at hlen; simp at hlen; omega)
      rw [hlen, List.length_nil] at this
      rw [hc]
      refine Ends.map ?_ this
      rintro st r ⟨ws, h1, h2⟩
      rw [h1, h2]; rfl

theorem bodyU_eq {P} {st : St} {op : UpdOp} {raw' : Word} (h : View P st.baNext st.mem raw' q n pfx big ch) (hn : op.node = n)
    (hr : nodePlen op.raw = nodePlen raw') : bodyU st op =
      if nodePlen op.raw > 0 then do
        match ← cmpPrefix (op.key.drop op.depth) pfx with
        | some i => do
          let k ← keyAt op.key op.depth
          return .lock false { op with data := ⟨n, blockSlots - n % blockSlots⟩, pfx := pfx, prefixSlots := prefixSlots pfx.length, kind := .nodePrefixMiss, k := k, prefixMismatch := i }
        | none => childrenU st.mem { op with data := ⟨n, blockSlots - n % blockSlots⟩, pfx := pfx, prefixSlots := prefixSlots pfx.length, depth := op.depth + pfx.length } (kidSlice n pfx)
      else childrenU st.mem { op with data := ⟨n, blockSlots - n % blockSlots⟩, pfx := [], prefixSlots := 0 } ⟨n, blockSlots - n % blockSlots⟩ := by
  have hf := h.fits
  unfold bodyU
  rw [hn, nodeData_view h]
  simp only [bind, Except.bind, pure, Except.pure]
  by_cases hp : nodePlen op.raw > 0
  · rw [if_pos hp, if_pos hp, hr, h.append]
    simp only [List.nil_append]
    cases cmpPrefix (op.key.drop op.depth) pfx with
    | error e => rfl
    | ok r =>
      cases r with
      | some i => rfl
      | none =>
        simp only
        have : Slice.drop ⟨n, blockSlots - n % blockSlots⟩ (prefixSlots pfx.length) = .ok (kidSlice n pfx) := by
          unfold Slice.drop
          rw [if_pos (by show _ ≤ blockSlots - n % blockSlots; omega)]
          rfl
        rw [this]
  · rw [if_neg hp, if_neg hp]

theorem ends_bodyU {op : UpdOp} {S : T → Prop} {l : Option St} (hr : Ref S op.raw q n pfx big ch) (hn : op.node = n) (hc : op.count = cnt big ch) :
    Ends env a (fun st r => r = bodyU st op) (bodyUP op) l S := by
  have hf := hr.fields.fits
  unfold bodyUP
  have hnd : nodeDataP op.node = nodeDataP (nodeAddr op.raw) := by rw [hn, hr.fields.addr]
  rw [hnd]
  refine Ends.of_nodeData (safe_nodeData hr) ?_
  intro l' S' hS hl
  have hr' := hr.mono hS
  have hbody : ∀ s S1, World env a s S1 → (∀ x, S x → S1 x) → ∃ raw' ch', View env.P s.st.baNext s.st.mem raw' q n pfx big ch' ∧ nodePlen op.raw = nodePlen raw' := by
    intro s S1 hw hS1
    obtain ⟨ch', e1, e2, _⟩ := hw.view hr.inS hS1
    exact ⟨_, ch', e2 0, by rw [hr.fields.plen, (e2 0).plen]⟩
  by_cases hp : nodePlen op.raw > 0
  · rw [if_pos hp]
    refine Ends.of_safe (L := True) (S0 := S) (safe_append hr' []) hS hl ?_
    intro l2 S2 hS2 hl2
    have hr2 := hr'.mono hS2
    simp only [List.nil_append]
    cases hcp : cmpPrefix (op.key.drop op.depth) pfx with
    | error e =>
      refine Ends.ret hl2 fun s S1 hw hS1 => ?_
      obtain ⟨raw', ch', hv, hpl⟩ := hbody s S1 hw hS1
      rw [bodyU_eq hv hn hpl, if_pos hp, hcp]; rfl
    | ok r =>
      cases r with
      | some i =>
        show Ends env a _ (Prog.ret (keyAt op.key op.depth) >>= _) l2 S2
        cases hk : keyAt op.key op.depth with
        | error e =>
          refine Ends.ret hl2 fun s S1 hw hS1 => ?_
          obtain ⟨raw', ch', hv, hpl⟩ := hbody s S1 hw hS1
          rw [bodyU_eq hv hn hpl, if_pos hp, hcp]
          simp only [bind, Except.bind, hk]
        | ok k =>
          refine Ends.ret hl2 fun s S1 hw hS1 => ?_
          obtain ⟨raw', ch', hv, hpl⟩ := hbody s S1 hw hS1
          rw [bodyU_eq hv hn hpl, if_pos hp, hcp]
          simp only [bind, Except.bind, hk]; rfl
      | none =>
        have hd : Slice.drop ⟨n, blockSlots - n % blockSlots⟩ (prefixSlots pfx.length) = .ok (kidSlice n pfx) := by
          unfold Slice.drop
          rw [if_pos (by show _ ≤ blockSlots - n % blockSlots; omega)]
          rfl
        show Ends env a _ (Prog.ret (Slice.drop ⟨n, blockSlots - n % blockSlots⟩ (prefixSlots pfx.length)) >>= _) l2 S2
        rw [hd]
        refine Ends.imp (S0 := S) ?_ (ends_childrenU (op := { op with data := ⟨n, blockSlots - n % blockSlots⟩, pfx := pfx, prefixSlots := prefixSlots pfx.length, depth := op.depth + pfx.length }) hr2 hc hl2)
          (fun x hx => hS2 x (hS x hx)) hl2
        intro s S1 r hw hS1 h
        obtain ⟨raw', ch', hv, hpl⟩ := hbody s S1 hw hS1
        rw [h, bodyU_eq hv hn hpl, if_pos hp, hcp]; rfl
  · rw [if_neg hp]
    have h0 : pfx = [] := by
      have := hr.fields.plen
      exact List.length_eq_zero_iff.1 (by omega)
    have hks : kidSlice n pfx = ⟨n, blockSlots - n % blockSlots⟩ := by rw [h0]; rfl
    have := ends_childrenU (op := { op with data := ⟨n, blockSlots - n % blockSlots⟩, pfx := [], prefixSlots := 0 }) hr' hc hl
    rw [hks] at this
    refine Ends.imp (S0 := S) ?_ this hS hl
    intro s S1 r hw hS1 h
    obtain ⟨raw', ch', hv, hpl⟩ := hbody s S1 hw hS1
    rw [h, bodyU_eq hv hn hpl, if_neg hp]

/-! ## The visit of a delete -/

theorem childrenD_eq {m : Mem} {cur : DelCur} {count plen : Nat} {data : Slice} : childrenD m cur count plen data =
    if cur.depth ≥ cur.key.length then .ok (.miss cur.key) else (keyAt cur.key cur.depth).bind fun k =>
    if count ≥ fullAllocFrom then (Slice.get m data k.toNat).map (fun a => cur.slot256 (data.base + k.toNat) a)
    else (Slice.words m data count).map (fun ws => cur.kid count plen data.base k (scan k ws).1 (scan k ws).2) := by
  unfold childrenD DelCur.slot256 DelCur.kid
  simp only [bind, Except.bind, pure, Except.pure]
  by_cases hd : cur.depth ≥ cur.key.length
  · rw [if_pos hd, if_pos hd]
  rw [if_neg hd, if_neg hd]
  cases keyAt cur.key cur.depth with
  | error e => rfl
  | ok k =>
    simp only
    by_cases hc : count ≥ fullAllocFrom
    · rw [if_pos hc, if_pos hc]
      cases Slice.get m data k.toNat with
      | error e => rfl
      | ok w =>
        simp only [Except.map]
        by_cases h0 : w = 0
        · rw [if_pos h0, if_pos h0]
        · rw [if_neg h0, if_neg h0]
          by_cases h1 : isLeaf w = true
          · rw [if_pos h1, if_pos h1]
          · rw [if_neg h1, if_neg h1]
    · rw [if_neg hc, if_neg hc]
      cases Slice.words m data count with
      | error e => rfl
      | ok ws =>
        simp only [Except.map]
        by_cases h0 : keyByte (scan k ws).2 = k
        · rw [if_pos h0, if_pos h0]
          by_cases h1 : isLeaf (scan k ws).2 = true
          · rw [if_pos h1, if_pos h1]
            by_cases h2 : count = 2
            · rw [if_pos h2, if_pos h2]
            · rw [if_neg h2, if_neg h2]
          · rw [if_neg h1, if_neg h1]
        · rw [if_neg h0, if_neg h0]

theorem ends_childrenD {cur : DelCur} {count plen : Nat} {S0 S : T → Prop} {l : Option St} (hr : Ref S raw q n pfx big ch) (hc : count = cnt big ch)
    (hl : Last env a S0 l) :
    Ends env a (fun st r => r = childrenD st.mem cur count plen (kidSlice n pfx)) (childrenDP cur count plen (kidSlice n pfx)) l S := by
  have hf := hr.fields.fits
  unfold childrenDP
  simp only [childrenD_eq]
  by_cases hd : cur.depth ≥ cur.key.length
  · rw [if_pos hd]
    simp only [if_pos hd]
    exact Ends.ret hl fun s S1 _ _ => rfl
  rw [if_neg hd]
  simp only [if_neg hd]
  cases hk : keyAt cur.key cur.depth with
  | error e => exact Ends.ret hl fun s S1 _ _ => rfl
  | ok k =>
    show Ends env a _ (if count ≥ fullAllocFrom then _ else _) l S
    simp only [bind, Except.bind]
    by_cases hb : big = true
    · have hge : count ≥ fullAllocFrom := by rw [hc]; exact hr.fields.big_iff.2 hb
      rw [if_pos hge]
      simp only [if_pos hge]
      exact Ends.map (fun st r h => by rw [h]) (ends_slot hb k hr)
    · have hb' : big = false := by simpa using hb
      have hge : ¬ count ≥ fullAllocFrom := by rw [hc, hr.fields.big_iff]; exact hb
      rw [if_neg hge]
      simp only [if_neg hge]
      have hck : (kidSlice n pfx).checkP count = .ret (.ok ()) := by
        unfold Slice.checkP
        rw [if_pos (by rw [hc]; show _ ≤ blockSlots - n % blockSlots - prefixSlots pfx.length; omega)]
      rw [hck]
      show Ends env a _ (scanAt (kidSlice n pfx) k count 0 0 >>= _) l S
      have h2 := hr.fields.small hb'
      have hlen := length_slotsOf big ch
      have := ends_scan (env := env) (a := a) hb' (k := k) (cs := slotsOf big ch) (pre := []) (w0 := 0) (l := l) hr rfl (by simp)
        (fun h => by rw [h] at hlen; simp at hlen; omega)
      rw [hlen, List.length_nil] at this
      rw [hc]
      refine Ends.map ?_ this
      rintro st r ⟨ws, h1, h2⟩
      rw [h1, h2]; rfl

theorem ends_bodyD {cur : DelCur} {S : T → Prop} {l : Option St} (hr : Ref S cur.op.raw q n pfx big ch) (hn : cur.op.node = n) :
    Ends env a (fun st r => r = bodyD st cur) (bodyDP cur) l S := by
  unfold bodyDP
  have hnd : nodeDataP cur.op.node = nodeDataP (nodeAddr cur.op.raw) := by rw [hn, hr.fields.addr]
  rw [hnd]
  refine Ends.of_nodeData (safe_nodeData hr) ?_
  intro l' S' hS hl
  refine Ends.of_safe (L := True) (S0 := S) (safe_skip (hr.mono hS)) hS hl ?_
  intro l2 S2 hS2 hl2
  have hr2 := (hr.mono hS).mono hS2
  refine Ends.imp (S0 := S) ?_ (ends_childrenD (cur := cur.passed n pfx) hr2 hr.fields.count hl2) (fun x hx => hS2 x (hS x hx)) hl2
  intro s S1 r hw hS1 h
  obtain ⟨ch', e1, e2, _⟩ := hw.view hr.inS hS1
  have hv := e2 0
  rw [h]
  unfold bodyD
  rw [hn, nodeData_view hv]
  simp only [bind, Except.bind]
  have hpl : nodePlen cur.op.raw = nodePlen (wordOf 0 (.node n pfx big ch')) := by rw [hr.fields.plen, hv.plen]
  rw [hpl, hv.skip]
  rfl

/-! ## The prefixes of a merge -/

/-- delete.go:232-245 at once. -/
def mergeRead (st : St) (cur : DelCur) (other : Word) (plen : Nat) : Res DPh := do
  let (pfx, _) ← appendPrefix st.mem [] cur.op.data plen
  let pfx := pfx ++ [keyByte other]
  let data ← st.nodeData cur.op.child
  let (pfx, slots) ← appendPrefix st.mem pfx data (nodePlen other)
  return .held { cur with op := { cur.op with pfx := pfx, data := data, prefixSlots := slots, kind := .replaceNodeWithNode } }

theorem ends_merge {cur : DelCur} {other : Word} {plen : Nat} {S : T → Prop} {l : Option St} {q2 : Key} {n2 : Nat} {pfx2 : List UInt8} {big2 : Bool} {ch2 : UInt8 → T}
    (hr : Ref S cur.op.raw q n pfx big ch) (hn : cur.op.node = n) (hr2 : Ref S other q2 n2 pfx2 big2 ch2) (hn2 : cur.op.child = n2)
    (hp : plen = nodePlen cur.op.raw) (hd : cur.op.data = ⟨cur.op.node, blockSlots - cur.op.node % blockSlots⟩) (hl : Last env a S l) :
    Ends env a (fun st r => r = mergeRead st cur other plen) (mergeP cur other plen) l S := by
  unfold mergeP
  rw [hd, hn, hp]
  refine Ends.of_safe (L := True) (S0 := S) (safe_append hr []) (fun _ h => h) hl ?_
  intro l1 S1 hS1 hl1
  have hnd : nodeDataP cur.op.child = nodeDataP (nodeAddr other) := by rw [hn2, hr2.fields.addr]
  rw [hnd]
  refine Ends.of_safe (L := True) (S0 := S) (safe_nodeData (hr2.mono hS1)) hS1 hl1 ?_
  intro l2 S2 hS2 hl2
  refine Ends.of_safe (L := True) (S0 := S) (safe_append ((hr2.mono hS1).mono hS2) _) (fun x hx => hS2 x (hS1 x hx)) hl2 ?_
  intro l3 S3 hS3 hl3
  refine Ends.ret hl3 fun s S4 hw hS4 => ?_
  obtain ⟨ch', e1, e2, _⟩ := hw.view hr.inS hS4
  obtain ⟨ch2', f1, f2, _⟩ := hw.view hr2.inS hS4
  have hv := e2 0
  have hv2 := f2 0
  have h1 : nodePlen cur.op.raw = nodePlen (wordOf 0 (.node n pfx big ch')) := by rw [hr.fields.plen, hv.plen]
  have h2 : nodePlen other = nodePlen (wordOf 0 (.node n2 pfx2 big2 ch2')) := by rw [hr2.fields.plen, hv2.plen]
  unfold mergeRead
  rw [hd, hn, hn2, h1, hv.append]
  simp only [bind, Except.bind]
  rw [nodeData_view hv2]
  simp only
  rw [h2, hv2.append]
  rfl

end
end
end Radix
