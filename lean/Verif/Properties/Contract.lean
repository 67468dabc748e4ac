import Verif.Properties.Concurrent
import Verif.Sys.Read
import Verif.Shape
import Verif.Properties.Walk
/-!
# Properties C03, C34, C35: lookup candidates, prefix violations, new trees
-/
set_option autoImplicit false
namespace Radix
variable {env : Env} {s : Sys} {σ : Spec}

/-! ## C03: what a lookup candidate has in common with the lookup key -/

/-- The key found and the lookup key agree wherever another key branches off. -/
theorem T.find_agree {P} {key lk : Key} {lv : Word} {t : T} : ∀ {q : Key}, t.WF P q → t.find key q.length = some (lk, lv) →
    ∀ {k' v'}, t.Has k' v' → ∀ {i : Nat}, k'.take i = lk.take i → k'[i]? ≠ lk[i]? → key[i]? = lk[i]? := by
  induction t with
  | empty => intro q _ h; cases h
  | leaf k v =>
    intro q _ h k' v' hk i h1 h2
    cases h
    obtain ⟨rfl, _⟩ := hk
    exact absurd rfl h2
  | node n pfx big ch ih =>
    intro q hwf h k' v' hk i h1 h2
    simp only [T.find] at h
    split at h
    · cases h
    · rename_i c hc
      have hlk := ((hwf.2.2 c).has (T.find_has h)).1
      obtain ⟨c', hk'⟩ := hk
      by_cases e : c' = c
      · subst e
        exact ih c' (hwf.2.2 c') (by simpa [Nat.add_assoc] using h) hk' h1 h2
      · have hk1 := ((hwf.2.2 c').has hk').1
        obtain ⟨r, rfl⟩ := hlk
        obtain ⟨r', rfl⟩ := hk1
        have hm : (q ++ pfx).length = q.length + pfx.length := by simp
        have g1 : (q ++ pfx ++ [c'] ++ r')[q.length + pfx.length]? = some c' := by
          rw [List.append_assoc, List.getElem?_append_right (by omega), hm]; simp
        have g2 : (q ++ pfx ++ [c] ++ r)[q.length + pfx.length]? = some c := by
          rw [List.append_assoc, List.getElem?_append_right (by omega), hm]; simp
        rcases Nat.lt_trichotomy i (q.length + pfx.length) with hi | hi | hi
        · exfalso
          apply h2
          have e1 : ∀ x : List UInt8, (q ++ pfx ++ x)[i]? = (q ++ pfx)[i]? := fun x => List.getElem?_append_left (by omega)
          rw [List.append_assoc, e1, List.append_assoc (q ++ pfx), e1]
        · subst hi
          rw [hc, g2]
        · exfalso
          have := congrArg (fun l : Key => l[q.length + pfx.length]?) h1
          simp only [List.getElem?_take, if_pos hi, g1, g2] at this
          exact e (Option.some.inj this)

/-- C03 in full: a candidate has its first byte in common with the key. -/
def C03_statement : Prop :=
  ∀ (env : Env) (s : Sys) (σ : Spec), Run env Serial s σ → 0 < s.st.nblocks → ∀ (a : Nat) (key : Key), key ≠ [] → ∀ v st',
    lookup s.st a key = .ok (some v, st') → (env.fetch v)[0]? = key[0]?

/-- C03 does not hold: with the keys "apple" and "april", `Lookup("xxp")` returns the value of "apple". -/
theorem C03_does_not_hold : ¬ C03_statement := by
  intro hall
  obtain ⟨s, σ, h1, h2⟩ := Run.ofCheck (h := demoKeys_good) (G := Serial) serial_sound (n := 2) (acts := demoActs.take 13)
    (check := fun s _ => decide (0 < s.st.nblocks) && decide (search (s.st.startOp 0) [120, 120, 112] = .ok (some 0)))
    (by decide +kernel)
  simp only [Bool.and_eq_true, decide_eq_true_eq] at h2
  have h3 : lookup s.st 0 [120, 120, 112] = .ok (some 0, (s.st.startOp 0).endOp 0) := by
    unfold lookup
    simp only [h2.2, bind, Except.bind]
    rfl
  have := hall _ s σ h1 h2.1 0 [120, 120, 112] (by decide) _ _ h3
  revert this
  decide +kernel

/-- C03, what does hold: the candidate is a stored key which agrees with the lookup key at every position where another stored key
branches off from it; in particular at the first byte, if the stored keys do not all start with the same byte; and the candidate
has the first byte of the lookup key if there is only one key and the tree has not had deletes. -/
theorem C03_candidate_agrees_at_branches_partial (h : Run env Calm s σ) (hb : 0 < s.st.nblocks) {a : Nat} {key : Key} (hk : key ≠ []) {v : Word}
    {st' : St} (hl : lookup s.st a key = .ok (some v, st')) :
    ∃ lk, σ.map lk = some v ∧ env.fetch v = lk ∧
      (∀ k' v', σ.map k' = some v' → ∀ i, k'.take i = lk.take i → k'[i]? ≠ lk[i]? → key[i]? = lk[i]?) ∧
      (Run env InsertOnly s σ → (∀ k', σ.map k' ≠ none → k' = lk) → key[0]? = lk[0]?) := by
  have main : ∀ t seen, Inv env s σ t seen → ∃ lk, σ.map lk = some v ∧ env.fetch v = lk ∧
      (∀ k' v', σ.map k' = some v' → ∀ i, k'.take i = lk.take i → k'[i]? ≠ lk[i]? → key[i]? = lk[i]?) ∧
      ∀ k v', t = .leaf k v' → key[0]? = lk[0]? := by
    intro t seen hI
    have h1 : search s.st key = .ok (leafAnswer (t.findRoot key)) := search_find hI.mem.core (fun _ => hb) hk
    have h2 : search (s.st.startOp a) key = .ok (some v) := by
      unfold lookup at hl
      simp only [bind, Except.bind] at hl
      split at hl
      · cases hl
      · rename_i r hr; cases hl; exact hr
    have h3 := search_congr (st' := s.st.startOp a) (st := s.st) rfl rfl rfl key
    rw [h3, h1] at h2
    injection h2 with h2
    cases hf : t.findRoot key with
    | none => rw [hf] at h2; cases h2
    | some x =>
      obtain ⟨lk, lv⟩ := x
      rw [hf] at h2
      have hv : trunc55 lv = v := by simpa [leafAnswer] using h2
      have hhas : t.Has lk lv := by
        cases t with
        | leaf k v' =>
          simp only [T.findRoot] at hf
          split at hf
          · cases hf; exact ⟨rfl, rfl⟩
          · cases hf
        | empty => cases hf
        | node => exact T.find_has hf
      have hst := hI.stored ((hI.has_iff lk lv).1 hhas)
      have hlv : lv = v := by rw [← hst.2.2]; exact hv
      subst hlv
      refine ⟨lk, (hI.has_iff lk lv).1 hhas, hst.2.1, ?_, ?_⟩
      · intro k' v' hk' i g1 g2
        have hh := (hI.has_iff k' v').2 hk'
        cases t with
        | leaf k2 v2 =>
          obtain ⟨rfl, _⟩ := hh
          obtain ⟨rfl, _⟩ := hhas
          exact absurd rfl g2
        | empty => cases hh
        | node => exact T.find_agree (q := []) hI.mem.core.wf hf hh g1 g2
      · rintro k2 v2 rfl
        simp only [T.findRoot] at hf
        split at hf
        · rename_i he
          cases hf
          have hne := env.ne hst.1
          cases lk with
          | nil => exact absurd rfl hne
          | cons x xs =>
            cases key with
            | nil => exact absurd rfl hk
            | cons y ys => simp at he; simp [he]
        · cases hf
  by_cases hins : Run env InsertOnly s σ
  · obtain ⟨t, seen, hI, hd⟩ := hins.insertOnly
    obtain ⟨lk, g1, g2, g3, g4⟩ := main t seen hI
    refine ⟨lk, g1, g2, g3, fun _ hone => ?_⟩
    have hh := (hI.has_iff _ _).2 g1
    cases ht : t with
    | empty => rw [ht] at hh; cases hh
    | leaf k v => exact g4 k v ht
    | node n pfx big ch =>
      exfalso
      rw [ht] at hd hI hh
      have hwf := hI.mem.core.wf
      obtain ⟨c, hc⟩ := hh
      obtain ⟨k', v', d, g5, g6, g7⟩ := T.Dense.other_key hd hwf c
      have : k' = lk := hone k' (by rw [(hI.has_iff k' v').1 ⟨d, g6⟩]; simp)
      subst this
      exact g5 (branch_ne g7 ((hwf.2.2 c).has hc).1)
  · obtain ⟨t, seen, hI⟩ := h.inv
    obtain ⟨lk, g1, g2, g3, g4⟩ := main t seen hI
    exact ⟨lk, g1, g2, g3, fun h' => absurd h' hins⟩

/-- The hypotheses are met, for example, by the keys "apple" and "april", for the key "xxp". -/
example : ∃ s σ, Run demoEnv Calm s σ ∧ Run demoEnv InsertOnly s σ ∧ 0 < s.st.nblocks ∧ ∃ st', lookup s.st 0 [120, 120, 112] = .ok (some 0, st') := by
  obtain ⟨s, σ, h1, h2⟩ := Run.ofCheck (h := demoKeys_good) (G := SerialInserts) serialInserts_sound (n := 2) (acts := demoActs.take 13)
    (check := fun s _ => decide (0 < s.st.nblocks) && decide (search (s.st.startOp 0) [120, 120, 112] = .ok (some 0)))
    (by decide +kernel)
  simp only [Bool.and_eq_true, decide_eq_true_eq] at h2
  refine ⟨s, σ, h1.serialInserts.mono fun _ _ h => h.1, h1.serialInserts, h2.1, (s.st.startOp 0).endOp 0, ?_⟩
  unfold lookup
  simp only [h2.2, bind, Except.bind]
  rfl

/-! ## C34: prefix violations -/

/-- The same phase of an update with another key. -/
def UPh.withKey (key : Key) : UPh → UPh
  | .start _ => .start key
  | .root _ r => .root key r
  | .gen op => .gen { op with key := key }
  | .ptr op => .ptr { op with key := key }
  | .par op => .par { op with key := key }
  | .body op => .body { op with key := key }
  | .lock f op => .lock f { op with key := key }
  | .held f op => .held f { op with key := key }
  | .tail r tl => .tail r tl

/-- One key is a prefix of the other. -/
def Comparable (a b : Key) : Prop := a <+: b ∨ b <+: a

theorem prefix_drop_both {a b : Key} (h : a <+: b) (n : Nat) : a.drop n <+: b.drop n := by
  obtain ⟨t, rfl⟩ := h
  rw [List.drop_append]
  exact List.prefix_append _ _

theorem prefix_getElem? {a b : Key} (h : a <+: b) {i : Nat} {x : UInt8} (hx : a[i]? = some x) : b[i]? = some x := by
  obtain ⟨t, rfl⟩ := h
  rw [List.getElem?_append_left (List.getElem?_eq_some_iff.1 hx).1, hx]

theorem Comparable.drop {a b : Key} (h : Comparable a b) (n : Nat) : Comparable (a.drop n) (b.drop n) := by
  rcases h with h | h
  · exact .inl (prefix_drop_both h n)
  · exact .inr (prefix_drop_both h n)

theorem Comparable.keyAt {a b : Key} (h : Comparable a b) (i : Nat) {k : UInt8} (hb : Radix.keyAt b i = .ok k) :
    Radix.keyAt a i = .ok k ∨ ∃ e, Radix.keyAt a i = .error e := by
  unfold Radix.keyAt at hb ⊢
  split at hb
  · rename_i x hx
    cases hb
    cases ha : a[i]? with
    | none => exact .inr ⟨_, rfl⟩
    | some y =>
      left
      simp only
      rcases h with h | h
      · rw [prefix_getElem? h ha] at hx; cases hx; rfl
      · rw [prefix_getElem? h hx] at ha; cases ha; rfl
  · cases hb

theorem Comparable.cmpPrefix : ∀ {a b : Key} (_ : Comparable a b) (pfx : List UInt8) {r : Option Nat}, Radix.cmpPrefix b pfx = .ok r →
    Radix.cmpPrefix a pfx = .ok r ∨ ∃ e, Radix.cmpPrefix a pfx = .error e
  | a, b, h, [], r, hb => by
    left
    unfold Radix.cmpPrefix at hb ⊢
    exact hb
  | [], b, h, y :: ys, r, hb => .inr ⟨_, rfl⟩
  | x :: xs, [], h, y :: ys, r, hb => by cases hb
  | x :: xs, x' :: xs', h, y :: ys, r, hb => by
    obtain ⟨rfl, h'⟩ : x = x' ∧ Comparable xs xs' := by
      rcases h with h | h
      · obtain ⟨h1, h2⟩ := List.cons_prefix_cons.1 h; exact ⟨h1, .inl h2⟩
      · obtain ⟨h1, h2⟩ := List.cons_prefix_cons.1 h; exact ⟨h1.symm, .inr h2⟩
    simp only [Radix.cmpPrefix] at hb ⊢
    split at hb
    · rename_i hne; rw [if_pos hne]; exact .inl hb
    · rename_i hne
      rw [if_neg hne]
      simp only [bind, Except.bind] at hb ⊢
      split at hb
      · cases hb
      · rename_i r' hr'
        rcases h'.cmpPrefix ys hr' with h1 | ⟨e, h1⟩
        · rw [h1]; exact .inl hb
        · rw [h1]; exact .inr ⟨e, rfl⟩

theorem childrenU_sim {key k0 : Key} (h : Comparable key k0) {m : Mem} {op : UpdOp} {data : Slice} {ph : UPh} (hk : op.key = k0)
    (hs : childrenU m op data = .ok ph) :
    childrenU m { op with key := key } data = .ok (ph.withKey key) ∨ ∃ e, childrenU m { op with key := key } data = .error e := by
  unfold childrenU at hs ⊢
  simp only [bind, Except.bind] at hs ⊢
  subst hk
  cases hka : keyAt op.key op.depth with
  | error e => rw [hka] at hs; cases hs
  | ok k =>
    rw [hka] at hs
    rcases h.keyAt _ hka with h1 | ⟨e, h1⟩
    · rw [h1]
      left
      simp only at hs ⊢
      split at hs
      · rename_i hc
        rw [if_pos hc]
        cases hg : data.get m k.toNat with
        | error e => rw [hg] at hs; cases hs
        | ok a =>
          rw [hg] at hs
          simp only at hs ⊢
          split at hs
          · rename_i h2; rw [if_pos h2]; cases hs; rfl
          · rename_i h2
            rw [if_neg h2]
            split at hs
            · rename_i h3; rw [if_pos h3]; cases hs; rfl
            · rename_i h3; rw [if_neg h3]; cases hs; rfl
      · rename_i hc
        rw [if_neg hc]
        cases hg : data.words m op.count with
        | error e => rw [hg] at hs; cases hs
        | ok ws =>
          rw [hg] at hs
          simp only at hs ⊢
          split at hs
          · rename_i h2
            rw [if_pos h2]
            split at hs
            · rename_i h3; rw [if_pos h3]; cases hs; rfl
            · rename_i h3; rw [if_neg h3]; cases hs; rfl
          · rename_i h2; rw [if_neg h2]; cases hs; rfl
    · rw [h1]
      exact .inr ⟨e, rfl⟩

theorem bodyU_sim {key k0 : Key} (h : Comparable key k0) {st : St} {op : UpdOp} {ph : UPh} (hk : op.key = k0)
    (hs : bodyU st op = .ok ph) :
    bodyU st { op with key := key } = .ok (ph.withKey key) ∨ ∃ e, bodyU st { op with key := key } = .error e := by
  unfold bodyU at hs ⊢
  simp only [bind, Except.bind] at hs ⊢
  cases hd : st.nodeData op.node with
  | error e => rw [hd] at hs; cases hs
  | ok data =>
    rw [hd] at hs
    simp only at hs ⊢
    split at hs
    · rename_i hp
      rw [if_pos hp]
      cases ha : appendPrefix st.mem [] data (nodePlen op.raw) with
      | error e => rw [ha] at hs; cases hs
      | ok x =>
        obtain ⟨pfx, slots⟩ := x
        rw [ha] at hs
        simp only at hs ⊢
        cases hc : cmpPrefix (op.key.drop op.depth) pfx with
        | error e => rw [hc] at hs; cases hs
        | ok r =>
          rw [hc] at hs
          subst hk
          rcases (h.drop op.depth).cmpPrefix pfx hc with h1 | ⟨e, h1⟩
          · rw [h1]
            cases r with
            | some i =>
              simp only at hs ⊢
              cases hka : keyAt op.key op.depth with
              | error e => rw [hka] at hs; cases hs
              | ok k =>
                rw [hka] at hs
                rcases h.keyAt _ hka with h2 | ⟨e, h2⟩
                · rw [h2]; left; cases hs; rfl
                · rw [h2]; exact .inr ⟨e, rfl⟩
            | none =>
              simp only at hs ⊢
              cases hdr : data.drop slots with
              | error e => rw [hdr] at hs; cases hs
              | ok d' =>
                rw [hdr] at hs
                exact childrenU_sim (op := { op with data := data, pfx := pfx, prefixSlots := slots, depth := op.depth + pfx.length }) h rfl hs
          · rw [h1]; exact .inr ⟨e, rfl⟩
    · rename_i hp
      rw [if_neg hp]
      exact childrenU_sim (op := { op with data := data, pfx := [], prefixSlots := 0 }) h hk hs

/-- With a comparable key, `prepareUpdate` does the same, unless it panics. -/
theorem stepU_sim {key k0 : Key} (h : Comparable key k0) {st st' : St} {ph ph' : UPh} (hk : ph.key? = some k0)
    (hs : stepU st ph = .ok (ph', st')) :
    stepU st (ph.withKey key) = .ok (ph'.withKey key, st') ∨ ∃ e, stepU st (ph.withKey key) = .error e := by
  cases ph with
  | start k =>
    left
    simp only [UPh.withKey, stepU] at hs ⊢
    split at hs <;> rename_i hc
    · rw [if_pos hc]; cases hs; rfl
    · rw [if_neg hc]; cases hs; rfl
  | root k r =>
    have hk : k = k0 := by simpa [UPh.key?] using hk
    subst hk
    simp only [UPh.withKey, stepU] at hs ⊢
    cases hl : st.lockLeafRoot r with
    | mk b st2 =>
      rw [hl] at hs
      cases b with
      | false => left; cases hs; rfl
      | true =>
        simp only [bind, Except.bind] at hs ⊢
        cases hka : keyAt k 0 with
        | error e => rw [hka] at hs; cases hs
        | ok x =>
          rw [hka] at hs
          rcases h.keyAt _ hka with h1 | ⟨e, h1⟩
          · rw [h1]
            left
            simp only at hs ⊢
            split at hs
            · rename_i h2; rw [if_pos h2]; cases hs; rfl
            · rename_i h2
              rw [if_neg h2]
              split at hs
              · rename_i h3; rw [if_pos h3]; cases hs; rfl
              · rename_i h3; rw [if_neg h3]; cases hs; rfl
          · rw [h1]; exact .inr ⟨e, rfl⟩
  | gen op =>
    left
    simp only [UPh.withKey, stepU, bind, Except.bind] at hs ⊢
    cases hg : st.generation (nodeAddr op.raw) with
    | error e => rw [hg] at hs; cases hs
    | ok g => rw [hg] at hs; cases hs; rfl
  | ptr op =>
    left
    simp only [UPh.withKey, stepU] at hs ⊢
    split at hs <;> rename_i hc
    · rw [if_pos hc]; cases hs; rfl
    · rw [if_neg hc]; cases hs; rfl
  | par op =>
    left
    simp only [UPh.withKey, stepU, bind, Except.bind] at hs ⊢
    split at hs <;> rename_i hc
    · rw [if_pos hc]; cases hs; rfl
    · rw [if_neg hc]
      cases hg : st.generation op.parent with
      | error e => rw [hg] at hs; cases hs
      | ok g =>
        rw [hg] at hs
        simp only at hs ⊢
        split at hs <;> rename_i hc
        · rw [if_pos hc]; cases hs; rfl
        · rw [if_neg hc]; cases hs; rfl
  | body op =>
    simp only [UPh.withKey, stepU, bind, Except.bind] at hs ⊢
    cases hb : bodyU st op with
    | error e => rw [hb] at hs; cases hs
    | ok ph1 =>
      rw [hb] at hs
      rcases bodyU_sim h (by simpa [UPh.key?] using hk) hb with h1 | ⟨e, h1⟩
      · rw [h1]; left; cases hs; rfl
      · rw [h1]; exact .inr ⟨e, rfl⟩
  | lock f op =>
    left
    simp only [UPh.withKey, stepU] at hs ⊢
    cases hl : st.lockNodes2 op.node op.nodeGen op.parent op.parentGen with
    | mk b st2 =>
      rw [hl] at hs
      cases b <;> (cases hs; rfl)
  | held f op => left; cases hs; rfl
  | tail r tl => left; cases hs; rfl

/-- Kinds of operations with a candidate. -/
def CandKind : UPh → Prop
  | .lock true op => op.kind = .nodeLeafUpdate ∨ op.kind = .nodeLeafUpdate256
  | .held true op => op.kind = .rootLeafUpdate ∨ op.kind = .nodeLeafUpdate ∨ op.kind = .nodeLeafUpdate256
  | _ => True

theorem childrenU_candKind {m : Mem} {op : UpdOp} {data : Slice} {ph : UPh} (hs : childrenU m op data = .ok ph) : CandKind ph := by
  unfold childrenU at hs
  simp only [bind, Except.bind] at hs
  split at hs
  · cases hs
  split at hs
  · split at hs
    · cases hs
    split at hs
    · cases hs; trivial
    split at hs
    · cases hs; exact .inr rfl
    · cases hs; trivial
  · split at hs
    · cases hs
    split at hs
    · split at hs
      · cases hs; exact .inl rfl
      · cases hs; trivial
    · cases hs; trivial

theorem bodyU_candKind {st : St} {op : UpdOp} {ph : UPh} (hs : bodyU st op = .ok ph) : CandKind ph := by
  unfold bodyU at hs
  simp only [bind, Except.bind] at hs
  split at hs
  · cases hs
  split at hs
  · split at hs
    · cases hs
    split at hs
    · cases hs
    split at hs
    · split at hs
      · cases hs
      · cases hs; trivial
    · split at hs
      · cases hs
      · exact childrenU_candKind hs
  · exact childrenU_candKind hs

theorem stepU_candKind {st st' : St} {ph ph' : UPh} (hk : CandKind ph) (hs : stepU st ph = .ok (ph', st')) : CandKind ph' := by
  cases ph with
  | start k =>
    simp only [stepU] at hs
    split at hs <;> (cases hs; trivial)
  | root k r =>
    simp only [stepU, bind, Except.bind] at hs
    split at hs
    · cases hs; trivial
    split at hs
    · cases hs
    split at hs
    · cases hs; trivial
    split at hs
    · cases hs; exact .inl rfl
    · cases hs; trivial
  | gen op =>
    simp only [stepU, bind, Except.bind] at hs
    split at hs
    · cases hs
    · cases hs; trivial
  | ptr op =>
    simp only [stepU] at hs
    split at hs <;> (cases hs; trivial)
  | par op =>
    simp only [stepU, bind, Except.bind] at hs
    split at hs
    · cases hs; trivial
    split at hs
    · cases hs
    split at hs <;> (cases hs; trivial)
  | body op =>
    simp only [stepU, bind, Except.bind] at hs
    split at hs
    · cases hs
    · rename_i hb; cases hs; exact bodyU_candKind hb
  | lock f op =>
    simp only [stepU] at hs
    split at hs
    · cases hs
      cases f with
      | true => exact .inr hk
      | false => trivial
    · cases hs; trivial
  | held f op => cases hs; exact hk
  | tail r tl => cases hs; exact hk

theorem rootCommon_comparable : ∀ {a b : Key}, Comparable a b → a ≠ b → ∃ e, rootCommon a b = .error e
  | [], b, _, _ => ⟨_, by unfold rootCommon; rfl⟩
  | x :: xs, [], _, _ => ⟨_, by unfold rootCommon; rfl⟩
  | x :: xs, y :: ys, h, hne => by
    obtain ⟨rfl, h'⟩ : x = y ∧ Comparable xs ys := by
      rcases h with h | h
      · obtain ⟨h1, h2⟩ := List.cons_prefix_cons.1 h; exact ⟨h1, .inl h2⟩
      · obtain ⟨h1, h2⟩ := List.cons_prefix_cons.1 h; exact ⟨h1.symm, .inr h2⟩
    obtain ⟨e, he⟩ := rootCommon_comparable h' (fun e => hne (by rw [e]))
    simp only [rootCommon, if_true]
    split
    · exact ⟨_, rfl⟩
    · rw [he]; exact ⟨e, rfl⟩

theorem commonLen_comparable : ∀ {a b : Key}, Comparable a b → commonLen a b = min a.length b.length
  | [], b, _ => by simp [commonLen]
  | x :: xs, [], _ => by simp [commonLen]
  | x :: xs, y :: ys, h => by
    obtain ⟨rfl, h'⟩ : x = y ∧ Comparable xs ys := by
      rcases h with h | h
      · obtain ⟨h1, h2⟩ := List.cons_prefix_cons.1 h; exact ⟨h1, .inl h2⟩
      · obtain ⟨h1, h2⟩ := List.cons_prefix_cons.1 h; exact ⟨h1.symm, .inr h2⟩
    simp only [commonLen, if_true, commonLen_comparable h', List.length_cons]
    omega

theorem keyAt_error {key : Key} {i : Nat} (h : key.length ≤ i) : keyAt key i = .error .index := by
  unfold keyAt; rw [List.getElem?_eq_none h]

/-- `Finalize` with a candidate of which the key is a proper prefix, or the other way round, panics. -/
theorem publishU_violation {st : St} {a : Nat} {op : UpdOp} {k0 : Key} (h : Comparable op.key k0) (hne : op.key ≠ k0)
    (hk : CandKind (.held true op)) (value : Word) : ∃ e, publishU st a op k0 false value = .error e := by
  unfold publishU
  have hlen : commonLen (op.key.drop (op.depth + 1)) (k0.drop (op.depth + 1)) + op.depth + 1 ≥ min op.key.length k0.length := by
    rw [commonLen_comparable (h.drop _)]; simp only [List.length_drop]; omega
  have hnode : ∃ e, (do
      let ka ← keyAt op.key (op.depth + 1 + commonLen (op.key.drop (op.depth + 1)) (k0.drop (op.depth + 1)))
      let kb ← keyAt k0 (op.depth + 1 + commonLen (op.key.drop (op.depth + 1)) (k0.drop (op.depth + 1)))
      return (ka, kb) : Res (UInt8 × UInt8)) = .error e := by
    by_cases hl : op.key.length ≤ op.depth + 1 + commonLen (op.key.drop (op.depth + 1)) (k0.drop (op.depth + 1))
    · rw [keyAt_error hl]; exact ⟨_, rfl⟩
    · have hl2 : k0.length ≤ op.depth + 1 + commonLen (op.key.drop (op.depth + 1)) (k0.drop (op.depth + 1)) := by omega
      rw [keyAt_error hl2]
      cases keyAt op.key (op.depth + 1 + commonLen (op.key.drop (op.depth + 1)) (k0.drop (op.depth + 1))) with
      | error e => exact ⟨e, rfl⟩
      | ok x => exact ⟨_, rfl⟩
  rcases hk with hk | hk | hk
  · rw [hk]
    obtain ⟨e, he⟩ := rootCommon_comparable h hne
    simp only [Bool.false_eq_true, if_false, he, bind, Except.bind]
    exact ⟨e, rfl⟩
  · rw [hk]
    simp only [Bool.false_eq_true, if_false, bind, Except.bind] at hnode ⊢
    cases h1 : keyAt op.key (op.depth + 1 + commonLen (op.key.drop (op.depth + 1)) (k0.drop (op.depth + 1))) with
    | error e => exact ⟨e, rfl⟩
    | ok x =>
      rw [h1] at hnode
      cases h2 : keyAt k0 (op.depth + 1 + commonLen (op.key.drop (op.depth + 1)) (k0.drop (op.depth + 1))) with
      | error e => exact ⟨e, rfl⟩
      | ok y => rw [h2] at hnode; obtain ⟨e, he⟩ := hnode; cases he
  · rw [hk]
    simp only [Bool.false_eq_true, if_false, bind, Except.bind] at hnode ⊢
    cases h1 : keyAt op.key (op.depth + 1 + commonLen (op.key.drop (op.depth + 1)) (k0.drop (op.depth + 1))) with
    | error e => exact ⟨e, rfl⟩
    | ok x =>
      rw [h1] at hnode
      cases h2 : keyAt k0 (op.depth + 1 + commonLen (op.key.drop (op.depth + 1)) (k0.drop (op.depth + 1))) with
      | error e => exact ⟨e, rfl⟩
      | ok y => rw [h2] at hnode; obtain ⟨e, he⟩ := hnode; cases he

/-- The steps of `PrepareUpdate` with a key comparable to a stored one end in a panic, at the latest in `Finalize`. -/
theorem Run.violation {a : Nat} {key k0 : Key} {v : Word} (hcmp : Comparable key k0) (hne : key ≠ k0) : ∀ (m : Nat) {s : Sys} {σ : Spec} {ph : UPh},
    Run env Calm s σ → SInv s → σ.map k0 = some v → s.proc a = .upd ph → ph.key? = some k0 → CandKind ph → leftU ph ≤ m →
    ∃ n s', n ≤ leftU ph ∧ execs env.fetch (s.set a s.st (.upd (ph.withKey key))) (List.replicate n (.run a)) = some s' ∧
      (∀ k, k ≠ [] → content env.fetch s'.st k = σ.map k) ∧
      ((∃ e, exec env.fetch s' (.run a) = some (.error e)) ∨
        ∃ op, s'.proc a = .upd (.held true op) ∧ op.key = key ∧ ∀ value, ∃ e, exec env.fetch s' (.publish a value) = some (.error e)) := by
  intro m
  have done : ∀ {s : Sys} {σ : Spec} {ph : UPh},
      Run env Calm s σ → SInv s → σ.map k0 = some v → s.proc a = .upd ph → ph.key? = some k0 → CandKind ph → (∃ f op, ph = .held f op) →
      ∃ n s', n ≤ leftU ph ∧ execs env.fetch (s.set a s.st (.upd (ph.withKey key))) (List.replicate n (.run a)) = some s' ∧
      (∀ k, k ≠ [] → content env.fetch s'.st k = σ.map k) ∧
      ((∃ e, exec env.fetch s' (.run a) = some (.error e)) ∨
        ∃ op, s'.proc a = .upd (.held true op) ∧ op.key = key ∧ ∀ value, ∃ e, exec env.fetch s' (.publish a value) = some (.error e)) := by
    rintro s σ ph h hS hm hp hk hc ⟨f, op, rfl⟩
    obtain ⟨t, seen, hI⟩ := h.inv
    have hkey : op.key = k0 := by simpa [UPh.key?] using hk
    subst hkey
    refine ⟨0, _, Nat.zero_le _, rfl, fun k hk => hI.contents hk, .inr ?_⟩
    cases f with
    | false =>
      have := hI.update_absent hp
      rw [hm] at this; cases this
    | true =>
      have hv := hI.update_own hp hm
      have hf := (hI.stored hm).2.1
      refine ⟨{ op with key := key }, by simp [Sys.set, UPh.withKey], rfl, fun value => ?_⟩
      obtain ⟨e, he⟩ := publishU_violation (st := s.st) (a := a) (op := { op with key := key }) (k0 := op.key) hcmp hne hc value
      refine ⟨e, ?_⟩
      have hd : decide (env.fetch op.value = key) = false := by
        rw [hv, hf]; exact decide_eq_false (fun e => hne e.symm)
      have hff : env.fetch op.value = op.key := by rw [hv, hf]
      have hpa : (s.set a s.st (.upd (UPh.withKey key (.held true op)))).proc a = .upd (.held true { op with key := key }) := by
        simp [Sys.set, UPh.withKey]
      simp only [exec, hpa, hd]
      rw [hff]
      simp only [Sys.set] at he ⊢
      rw [he]
      rfl
  induction m with
  | zero =>
    intro s σ ph h hS hm hp hk hc hl
    cases ph with
    | held f op => exact done h hS hm hp hk hc ⟨_, _, rfl⟩
    | tail r tl => cases hk
    | _ => simp [leftU] at hl
  | succ m ih =>
    intro s σ ph h hS hm hp hk hc hl
    by_cases hh : ∃ f op, ph = .held f op
    · exact done h hS hm hp hk hc hh
    · have h1 : ∀ f op, ph ≠ .held f op := fun f op e => hh ⟨f, op, e⟩
      have h2 : ∀ r tl, ph ≠ .tail r tl := by rintro r tl rfl; cases hk
      obtain ⟨t, seen, hI⟩ := h.inv
      obtain ⟨ph', st', he, g1, g2, g3, g4, g5⟩ := h.stepU hS hp h1 h2
      have hst : Radix.stepU s.st ph = .ok (ph', st') := by
        obtain ⟨ph2, st2, j1, _⟩ := stepU_now hI (hS.lone (by rw [hp]; rfl)) hp h1 h2
        have he2 : exec env.fetch s (.run a) = some (.ok (s.set a st2 (.upd ph2), .none)) := by
          cases ph <;> first
            | (simp only [exec, hp, j1, bind, Except.bind, pure, Except.pure]; done)
            | exact absurd rfl (h1 _ _)
            | exact absurd rfl (h2 _ _)
        rw [he] at he2
        simp only [Option.some.injEq, Except.ok.injEq, Prod.mk.injEq, and_true] at he2
        have e1 := congrArg Sys.st he2
        have e2 := congrArg (fun s : Sys => s.proc a) he2
        simp [Sys.set] at e1 e2
        rw [j1, e1, e2]
      have hrun : ∀ r, Radix.stepU s.st (ph.withKey key) = r → exec env.fetch (s.set a s.st (.upd (ph.withKey key))) (.run a) =
          some (r.map fun x => (s.set a x.2 (.upd x.1), .none)) := by
        intro r hr
        subst hr
        have hset : ∀ st p, (s.set a s.st (.upd (ph.withKey key))).set a st p = s.set a st p := by
          intro st p; simp [Sys.set, upd_upd]
        cases ph <;> first
          | exact absurd rfl (h1 _ _)
          | exact absurd rfl (h2 _ _)
          | (simp only [exec, UPh.withKey, bind, Except.bind, pure, Except.pure] at hset ⊢
             simp only [show ∀ st p, (s.set a st p).proc a = p from fun st p => by simp [Sys.set], hset]
             simp only [Sys.set]
             split <;> rename_i hx <;> rw [hx] <;> rfl)
      rcases stepU_sim hcmp hk hst with h3 | ⟨e, h3⟩
      · obtain ⟨n, s', i1, i2, i3, i4⟩ := ih g1 g2 hm (ph := ph') (by simp [Sys.set]) (g4.trans hk) (stepU_candKind hc hst) (by omega)
        refine ⟨n + 1, s', by omega, ?_, i3, i4⟩
        rw [List.replicate_succ, execs_one (hrun _ h3)]
        simpa [Sys.set, upd_upd] using i2
      · exact ⟨0, _, Nat.zero_le _, rfl, fun k hk => hI.contents hk, .inl ⟨e, hrun _ h3⟩⟩

/-- C34: in any reachable tree, if `k0` is stored, the insertion of a key which is a proper prefix of `k0`, or has `k0` as a proper
prefix, panics after a bounded number of steps: in `PrepareUpdate`, or in `Finalize` whatever the value.  Up to then the contents are
unchanged. -/
theorem C34_prefix_violations_panic_partial (h : Run env Calm s σ) (hidle : ∀ b, s.proc b = .idle) {a : Nat} (ha : a < s.st.nalloc) {k0 key : Key}
    (hm : σ.map k0 ≠ none) (hpre : key <+: k0 ∨ k0 <+: key) (hne : key ≠ k0) :
    ∃ n s', n ≤ 8 * k0.length + 9 ∧ execs env.fetch s (prepareActs a (.update key) n) = some s' ∧
      (∀ k, k ≠ [] → content env.fetch s'.st k = σ.map k) ∧
      ((∃ e, exec env.fetch s' (.run a) = some (.error e)) ∨
        ∃ op, s'.proc a = .upd (.held true op) ∧ op.key = key ∧ ∀ value, ∃ e, exec env.fetch s' (.publish a value) = some (.error e)) := by
  obtain ⟨v, hv⟩ : ∃ v, σ.map k0 = some v := by
    cases e : σ.map k0 with
    | none => exact absurd e hm
    | some v => exact ⟨v, rfl⟩
  obtain ⟨t, seen, hI⟩ := h.inv
  have e1 : exec env.fetch s (.begin a (.update k0)) = some (.ok (s.set a s.st (.arm s.st.epoch (.update k0)), .none)) := by
    simp [exec, hidle a, ha]
  obtain ⟨h1, S1⟩ := h.stepOne (SInv.idle hidle) (act := .begin a (.update k0)) (hI.stored hv).1 (fun b => by rw [hidle b]; rfl) e1
  have e2 : exec env.fetch (s.set a s.st (.arm s.st.epoch (.update k0))) (.arm a) =
      some (.ok ((s.set a s.st (.arm s.st.epoch (.update k0))).set a { s.st with resv := upd s.st.resv a s.st.epoch } (.upd (.start k0)),
        .begun a (.update k0))) := by
    simp [exec, Sys.set, Call.start]
  obtain ⟨h2, S2⟩ := h1.stepOne S1 (act := .arm a) trivial trivial e2
  obtain ⟨n, s', g1, g2, g3, g4⟩ := Run.violation (a := a) (key := key) (k0 := k0) hpre hne _ h2 S2 hv
    (ph := .start k0) (by simp [Sys.set]) rfl trivial (Nat.le_refl _)
  refine ⟨n, s', g1, ?_, g3, g4⟩
  have f1 : exec env.fetch s (.begin a (.update key)) = some (.ok (s.set a s.st (.arm s.st.epoch (.update key)), .none)) := by
    simp [exec, hidle a, ha]
  have f2 : exec env.fetch (s.set a s.st (.arm s.st.epoch (.update key))) (.arm a) =
      some (.ok ((s.set a s.st (.arm s.st.epoch (.update key))).set a { s.st with resv := upd s.st.resv a s.st.epoch } (.upd (.start key)),
        .begun a (.update key))) := by
    simp [exec, Sys.set, Call.start]
  unfold prepareActs
  rw [List.cons_append, List.cons_append, List.nil_append, execs_one f1, execs_one f2]
  simpa [Sys.set, upd_upd, UPh.withKey] using g2

/-- The hypotheses are met, for example, with the four keys stored: "apple" is one of them, "app" is a proper prefix of it and "apples" has
it as a proper prefix.  Here the first insertion panics in `PrepareUpdate` and the second one in `Finalize`. -/
example : ∃ s σ, Run demoEnv Calm s σ ∧ (∀ b, s.proc b = .idle) ∧ 1 < s.st.nalloc ∧ σ.map [97, 112, 112, 108, 101] ≠ none := by
  obtain ⟨s, σ, h1, h2⟩ := Run.ofCheck (h := demoKeys_good) (G := Calm) calm_sound (n := 2) (acts := demoActs.take 33)
    (check := fun s σ => (List.range s.st.nalloc).all (fun b => (s.proc b).isIdle) && decide (1 < s.st.nalloc) &&
      (σ.map [97, 112, 112, 108, 101]).isSome)
    (by decide +kernel)
  simp only [Bool.and_eq_true, decide_eq_true_eq] at h2
  obtain ⟨t, seen, hI⟩ := h1.inv
  exact ⟨s, σ, h1, all_idle hI.mem.off h2.1.1, h2.1.2, by intro e; rw [e] at h2; simp at h2⟩

/-! ## C35: new trees -/

/-- One operation at a time. -/
def Alone (s : Sys) : Act → Prop
  | .begin _ _ => ∀ b, s.proc b = .idle
  | _ => True

/-- C35 in full: whether or not the block goroutine has made its first step, no step of `Lookup`, `PrepareUpdate` or `PrepareDelete`
panics; even if there is only one operation at a time. -/
def C35_statement : Prop :=
  ∀ (env : Env) (s : Sys) (σ : Spec), Run env Alone s σ → ∀ (a : Nat) (e : Panic), exec env.fetch s (.run a) ≠ some (.error e)

/-- C35 does not hold: if `Lookup` runs before the first step of the block goroutine, it panics because block 0 does not exist yet. -/
theorem C35_does_not_hold : ¬ C35_statement := by
  intro hall
  have h0 : Run demoEnv Alone (Sys.new 1) .init := .init 1
  have h1 := Run.step h0 (act := .begin 0 (.lookup [97])) (s' := (Sys.new 1).set 0 (St.new 1) (.arm 0 (.lookup [97]))) (ev := .none)
    (by simp [Env.Allowed]) (fun _ => rfl) rfl
  have h2 := Run.step h1 (act := .arm 0) trivial trivial rfl
  have h3 := Run.step h2 (act := .run 0) trivial trivial rfl
  exact hall _ _ _ h3 0 .nilBlock rfl

/-- C35, what does hold.  No step of `PrepareUpdate`, `PrepareDelete` or of a `Lookup` which began when there was a block panics.  And
`Lookup` panics exactly if the tree is empty and the block goroutine has not made its first step. -/
theorem C35_operations_of_a_new_tree_partial (h : Run env Calm s σ) (a : Nat) :
    (∀ e, Calm s (.run a) → exec env.fetch s (.run a) ≠ some (.error e)) ∧
    ∀ key, key ≠ [] → ((∃ e, lookup s.st a key = .error e) ↔ (∀ k, σ.map k = none) ∧ s.st.nblocks = 0) := by
  refine ⟨fun e hc he => ?_, fun key hk => ?_⟩
  · rcases C10_panics_partial h (act := .run a) trivial hc he with ⟨h1 | ⟨_, _, h1⟩ | ⟨_, _, h1⟩, _⟩ | ⟨_, h1, _⟩ | ⟨_, h1, _⟩ <;> cases h1
  · obtain ⟨t, seen, hI⟩ := h.inv
    have e1 : lookup s.st a key = (search s.st key).map fun r => (r, (s.st.startOp a).endOp a) := by
      unfold lookup
      simp only [search_congr (st' := s.st.startOp a) (st := s.st) rfl rfl rfl key]
      cases search s.st key <;> rfl
    rw [e1]
    constructor
    · rintro ⟨e, he⟩
      by_cases ht : t = .empty
      · by_cases hnb : 0 < s.st.nblocks
        · rw [search_find hI.mem.core (fun _ => hnb) hk] at he; cases he
        · subst ht
          exact ⟨fun k => hI.mem.content.none_iff.2 fun _ h => h, by omega⟩
      · rw [search_find hI.mem.core (fun e => absurd e ht) hk] at he; cases he
    · rintro ⟨hn, hb⟩
      have ht : t = .empty := by
        cases t with
        | empty => rfl
        | leaf k v => have := (hI.has_iff k v).1 ⟨rfl, rfl⟩; rw [hn] at this; cases this
        | node n pfx big ch =>
          have h1 := hI.mem.core.inb
          have h2 := s.st.baNext_le
          exact absurd h1.1.2.1 (by rw [show s.st.baNext = 0 by omega]; exact Nat.not_lt_zero _)
      subst ht
      have hr : s.st.root = 0 := hI.mem.core.root
      refine ⟨.nilBlock, ?_⟩
      have hnd : s.st.nodeData (nodeAddr 0) = .error .nilBlock := by
        unfold St.nodeData; rw [hb]; rfl
      have hl : isLeaf 0 = false := by decide
      simp only [search, hr, hl, Bool.false_eq_true, if_false, searchLoop, hnd, bind, Except.bind, Except.map]

/-- The hypothesis is met by a new tree (empty, no block); after one insertion (no block needed) and after the block goroutine's first
step `Lookup` does not panic. -/
example : Run demoEnv Calm (Sys.new 2) .init ∧ (Sys.new 2).st.nblocks = 0 ∧
    (∃ s σ, Run demoEnv Calm s σ ∧ s.st.nblocks = 0 ∧ σ.map [97, 112, 112, 108, 101] ≠ none) := by
  refine ⟨.init 2, by decide, ?_⟩
  obtain ⟨s, σ, h1, h2⟩ := Run.ofCheck (h := demoKeys_good) (G := Calm) calm_sound (n := 2) (acts := (putActs 0 [97, 112, 112, 108, 101] 0 2))
    (check := fun s σ => decide (s.st.nblocks = 0) && (σ.map [97, 112, 112, 108, 101]).isSome)
    (by decide +kernel)
  simp only [Bool.and_eq_true, decide_eq_true_eq] at h2
  exact ⟨s, σ, h1, h2.1, by intro e; rw [e] at h2; simp at h2⟩

end Radix
