import Verif.Properties.TornTwo
import Verif.Properties.FineReaders
/-!
# Readers beside operations that copy nodes word by word

C63 and C64.  As Properties/FineReaders.lean, where in addition every load of a word that `Finalize` copies into a new node is a step of its own
(Model/Torn.lean).
-/
set_option autoImplicit false
namespace Radix

/-- As `FWalks`, with the loads of the words that are copied among the steps of the others. -/
inductive TWalks (env : Env) (H : TSys → TAct → Prop) (K : Sys → Ev → Prop) {α : Type} (τ : TSys) (σ : Spec) (p : Prog α) : TSys → Spec → Prog α → Prop
  | refl : TWalks env H K τ σ p τ σ p
  | other {τ1 σ1 q act τ2 ev} : TWalks env H K τ σ p τ1 σ1 q → act.allowed env τ1 → H τ1 act → texec env.fetch τ1 act = some (.ok (τ2, ev)) →
      K τ2.f.sys ev → TWalks env H K τ σ p τ2 (σ1.next ev) q
  | root {τ1 σ1 k} : TWalks env H K τ σ p τ1 σ1 (.root k) → TWalks env H K τ σ p τ1 σ1 (k τ1.f.sys.st.root)
  | blocks {τ1 σ1 k} : TWalks env H K τ σ p τ1 σ1 (.blocks k) → TWalks env H K τ σ p τ1 σ1 (k τ1.f.sys.st.nblocks)
  | load {τ1 σ1 x k} : TWalks env H K τ σ p τ1 σ1 (.load x k) → TWalks env H K τ σ p τ1 σ1 (k (τ1.f.sys.st.mem x))

/-- As `FBegins`. -/
def TBegins (env : Env) (H : TSys → TAct → Prop) (a : Nat) (c : Call) (τ : TSys) (σ : Spec) : Prop :=
  ∃ τ0 σ0, TRun env H τ0 σ0 ∧ TAct.allowed env τ0 (.act (.arm a)) ∧ H τ0 (.act (.arm a)) ∧
    texec env.fetch τ0 (.act (.arm a)) = some (.ok (τ, .begun a c)) ∧ σ = σ0.next (.begun a c)

/-- As `FIterates`. -/
inductive TIterates (env : Env) (H : TSys → TAct → Prop) (p : Key) : TSys → Spec → Iter → List (Option Word) → List Map → Prop
  | new {τ σ} : TRun env H τ σ → TIterates env H p τ σ (Iter.new p) [] [σ.map]
  | other {τ σ it out W act τ' ev} : TIterates env H p τ σ it out W → act.allowed env τ → H τ act → texec env.fetch τ act = some (.ok (τ', ev)) →
      TIterates env H p τ' (σ.next ev) it out ((σ.next ev).map :: W)
  | cached {τ σ it out W b it'} : TIterates env H p τ σ it out W → it.prefetched[it.pp]? ≠ none ∨ it.done = true → it.nextP 0 = .ret (.ok (b, it')) →
      TIterates env H p τ σ it' (out ++ [if b then some it'.value else none]) W
  | scan {τ0 σ0 it out W a τ fuel τ' σ' b it'} : TIterates env H p τ0 σ0 it out W → it.prefetched[it.pp]? = none → it.done = false →
      TAct.allowed env τ0 (.act (.arm a)) → H τ0 (.act (.arm a)) → texec env.fetch τ0 (.act (.arm a)) = some (.ok (τ, .begun a .walk)) →
      TWalks env H (During a) τ (σ0.next (.begun a .walk)) (it.nextP fuel) τ' σ' (.ret (.ok (b, it'))) →
      TIterates env H p τ' σ' it' (out ++ [if b then some it'.value else none]) (σ'.window a ++ W)

section
variable {env : Env} {α : Type} {a : Nat}

/-- With the restriction `H`, copying word by word comes to the same as copying at once with the restriction `H'`. -/
structure TFits (env : Env) (H : TSys → TAct → Prop) (H' : FSys → FAct → Prop) : Prop where
  run : ∀ {τ σ}, TRun env H τ σ → FRun env H' τ.f σ
  load : ∀ {τ σ b x τ' ev}, TRun env H τ σ → texec env.fetch τ (.load b x) = some (.ok (τ', ev)) → τ'.f = τ.f ∧ ev = .none
  act : ∀ {τ σ act τ' ev}, TRun env H τ σ → env.Allowed τ.f.sys act.act → H τ (.act act) → texec env.fetch τ (.act act) = some (.ok (τ', ev)) →
    H' τ.f act ∧ fexec env.fetch τ.f act = some (.ok (τ'.f, ev))

theorem tfits_two : TFits env TTwoUpdates FTwoUpdates where
  run h := h.two.1
  load h he := by
    obtain ⟨h1, h2, _⟩ := TSys.load_loaded h.two.2 he
    exact ⟨h1, h2⟩
  act h hall hG he := by
    obtain ⟨s, t, seen, hF⟩ := h.two.1.two
    exact ⟨hG, (TSys.step_rel hF.weaken h.two.2 hall (fun {b x w} hx a cur cm _ hp _ _ _ => hF.twoApart hp (h.two.2 b x w hx).1) he).1⟩

theorem tfits_calm : TFits env TCalm FCalm where
  run h := h.fine.1
  load h he := by
    obtain ⟨h1, h2, _⟩ := TSys.load_loaded h.fine.2 he
    exact ⟨h1, h2⟩
  act h hall hG he := ⟨hG.1, (TSys.step_fine h.fine.1 h.fine.2 hall hG he).1⟩

section
variable {H : TSys → TAct → Prop} {H' : FSys → FAct → Prop}

theorem TWalks.run {K : Sys → Ev → Prop} {τ τ' : TSys} {σ σ' : Spec} {p p' : Prog α} (h : TWalks env H K τ σ p τ' σ' p') (hr : TRun env H τ σ) :
    TRun env H τ' σ' := by
  induction h with
  | refl => exact hr
  | other _ h1 h2 h3 _ ih => exact .step ih h1 h2 h3
  | root _ ih => exact ih
  | blocks _ ih => exact ih
  | load _ ih => exact ih

theorem TWalks.fine {K : Sys → Ev → Prop} (hT : TFits env H H') {τ τ' : TSys} {σ σ' : Spec} {p p' : Prog α} (h : TWalks env H K τ σ p τ' σ' p')
    (hr : TRun env H τ σ) : FWalks env H' K τ.f σ p τ'.f σ' p' := by
  induction h with
  | refl => exact .refl
  | @other τ1 σ1 q act τ2 ev hw h1 h2 h3 h4 ih =>
    cases act with
    | load b x =>
      obtain ⟨e, rfl⟩ := hT.load (hw.run hr) h3
      rw [e]; exact ih
    | act act =>
      obtain ⟨g1, g2⟩ := hT.act (hw.run hr) h1 h2 h3
      exact .other ih h1 g1 g2 h4
  | root _ ih => exact .root ih
  | blocks _ ih => exact .blocks ih
  | load _ ih => exact .load ih

theorem TBegins.run {c : Call} {τ : TSys} {σ : Spec} (h : TBegins env H a c τ σ) : TRun env H τ σ := by
  obtain ⟨τ0, σ0, h1, h2, h3, h4, rfl⟩ := h
  exact .step h1 h2 h3 h4

theorem TBegins.fine (hT : TFits env H H') {c : Call} {τ : TSys} {σ : Spec} (h : TBegins env H a c τ σ) : FBegins env H' a c τ.f σ := by
  obtain ⟨τ0, σ0, h1, h2, h3, h4, rfl⟩ := h
  obtain ⟨g1, g2⟩ := hT.act (act := .arm a) h1 h2 h3 h4
  exact ⟨τ0.f, σ0, hT.run h1, h2, g1, g2, rfl⟩

theorem TIterates.run {p : Key} {τ : TSys} {σ : Spec} {it : Iter} {out : List (Option Word)} {W : List Map} (h : TIterates env H p τ σ it out W) :
    TRun env H τ σ := by
  induction h with
  | new h => exact h
  | other _ h1 h2 h3 ih => exact .step ih h1 h2 h3
  | cached _ _ _ ih => exact ih
  | scan _ _ _ h3 h4 h5 h6 ih => exact h6.run (.step ih h3 h4 h5)

theorem TIterates.fine (hT : TFits env H H') {p : Key} {τ : TSys} {σ : Spec} {it : Iter} {out : List (Option Word)} {W : List Map}
    (h : TIterates env H p τ σ it out W) : ∃ W', FIterates env H' p τ.f σ it out W' ∧ ∀ M ∈ W', M ∈ W := by
  induction h with
  | new h => exact ⟨_, .new (hT.run h), fun _ h => h⟩
  | @other τ σ it out W act τ' ev hi h1 h2 h3 ih =>
    obtain ⟨W', g1, g2⟩ := ih
    cases act with
    | load b x =>
      obtain ⟨e, rfl⟩ := hT.load hi.run h3
      exact ⟨W', by rw [e]; exact g1, fun M hM => List.mem_cons_of_mem _ (g2 M hM)⟩
    | act act =>
      obtain ⟨k1, k2⟩ := hT.act hi.run h1 h2 h3
      refine ⟨_, g1.other h1 k1 k2, fun M hM => ?_⟩
      rcases List.mem_cons.1 hM with rfl | hM
      · exact List.mem_cons_self ..
      · exact List.mem_cons_of_mem _ (g2 M hM)
  | cached _ h1 h2 ih =>
    obtain ⟨W', g1, g2⟩ := ih
    exact ⟨W', g1.cached h1 h2, g2⟩
  | @scan _ _ _ _ _ b _ _ _ _ _ _ hi h1 h2 h3 h4 h5 h6 ih =>
    obtain ⟨W', g1, g2⟩ := ih
    obtain ⟨k1, k2⟩ := hT.act (act := .arm b) hi.run h3 h4 h5
    refine ⟨_, g1.scan h1 h2 h3 k1 k2 (h6.fine hT (.step hi.run h3 h4 h5)), fun M hM => ?_⟩
    rcases List.mem_append.1 hM with hM | hM
    · exact List.mem_append_left _ hM
    · exact List.mem_append_right _ (g2 M hM)
end

/-! ## At most two updates, or one delete -/

section
variable {τ τ' : TSys} {σ σ' : Spec}

/-- C63: a reader beside operations that copy word by word loads what a reader beside operations that copy at once loads, so that everything said of the
latter in Properties/FineReaders.lean holds of the former. -/
theorem C63_copied_at_once {c : Call} {p p' : Prog α} (hb : TBegins env TTwoUpdates a c τ σ)
    (hw : TWalks env TTwoUpdates (During a) τ σ p τ' σ' p') :
    FBegins env FTwoUpdates a c τ.f σ ∧ FWalks env FTwoUpdates (During a) τ.f σ p τ'.f σ' p' :=
  ⟨hb.fine tfits_two, hw.fine tfits_two hb.run⟩

/-- C63: the same for iterators; the maps that the keys of the iterator are stored in, at some time or all the time, are no others. -/
theorem C63_iterators_copied_at_once {p : Key} {it : Iter} {out : List (Option Word)} {W : List Map} (h : TIterates env TTwoUpdates p τ σ it out W) :
    ∃ W', FIterates env FTwoUpdates p τ.f σ it out W' ∧ ∀ M ∈ W', M ∈ W := h.fine tfits_two

/-! ## Any number of operations -/

/-- C64 for `Count`, in executions in which the races of the code do not show. -/
theorem C64_count_partial {fuel : Nat} {sp : Key} {r : Res Counter} (hb : TBegins env TCalm a .walk τ σ)
    (hw : TWalks env TCalm (During a) τ σ (countP fuel sp) τ' σ' (.ret r)) :
    r = .error .fuel ∨ ∃ c, r = .ok c ∧ (CountsBetween (σ'.window a) sp c.leaves ∨
      (c.leaves = 1 ∧ sp ≠ [] ∧ ∀ k, sp <+: k → ∃ M ∈ σ'.window a, M k = none)) := by
  obtain ⟨s, s', h1, h2, _⟩ := (hw.fine tfits_calm hb.run).calmOf (hb.fine tfits_calm)
  exact C42_partial h1 h2

/-- C64 for `MinKey`. -/
theorem C64_min_partial {c : Call} {fuel : Nat} {sp : Key} {r : Res (Option Word)} (hb : TBegins env TCalm a c τ σ) (hnb : 0 < τ.f.sys.st.nblocks)
    (hw : TWalks env TCalm (During a) τ σ (minKeyP fuel sp) τ' σ' (.ret r)) :
    r = .error .fuel ∨ ∃ o, r = .ok o ∧ ∀ v, o = some v →
      ∃ k, (∃ M ∈ σ'.window a, M k = some v) ∧ ∀ k', sp <+: k' → (∀ M ∈ σ'.window a, M k' ≠ none) → sp <+: k ∧ ¬ k' < k := by
  obtain ⟨s, s', h1, h2, h3, _⟩ := (hw.fine tfits_calm hb.run).calmOf (hb.fine tfits_calm)
  exact C43_min_partial h1 (by rw [h3]; exact hnb) h2

/-- C64 for `MaxKey`. -/
theorem C64_max_partial {c : Call} {fuel : Nat} {sp : Key} {r : Res (Option Word)} (hb : TBegins env TCalm a c τ σ) (hnb : 0 < τ.f.sys.st.nblocks)
    (hw : TWalks env TCalm (During a) τ σ (maxKeyP fuel sp) τ' σ' (.ret r)) :
    r = .error .fuel ∨ ∃ o, r = .ok o ∧ ∀ v, o = some v →
      ∃ k, (∃ M ∈ σ'.window a, M k = some v) ∧ ∀ k', sp <+: k' → (∀ M ∈ σ'.window a, M k' ≠ none) → sp <+: k ∧ ¬ k < k' := by
  obtain ⟨s, s', h1, h2, h3, _⟩ := (hw.fine tfits_calm hb.run).calmOf (hb.fine tfits_calm)
  exact C43_max_partial h1 (by rw [h3]; exact hnb) h2

/-- C64: the slot that a `Count` is about to load is not handed out for a new node. -/
theorem C64_count_loads_partial {fuel : Nat} {sp : Key} {x : Nat} {k : Word → Prog Counter} (hb : TBegins env TCalm a .walk τ σ)
    (hw : TWalks env TCalm (During a) τ σ (countP fuel sp) τ' σ' (.load x k)) {b : Nat} {sizes : List Nat} {r : List (Nat × Nat)} {st' : St}
    (hlt : b < τ'.f.sys.st.nalloc) (hsz : ∀ z ∈ sizes, 2 ≤ z ∧ z + 1 < blockSlots) (hn : newNodes τ'.f.sys.st b sizes = .ok (r, st')) {n z : Nat}
    (hz : (n, z) ∈ r) : ¬ (n ≤ x ∧ x < n + z) := by
  obtain ⟨s, s', h1, h2, _, h4⟩ := (hw.fine tfits_calm hb.run).calmOf (hb.fine tfits_calm)
  obtain ⟨st2, h5⟩ := newNodes_of_relock h4 hn
  exact (C24_count_partial h1 h2).2 b sizes r st2 (by rw [h4] at hlt; exact hlt) hsz h5 n z hz

/-- C64: the slot that a `MinKey` or `MaxKey` is about to load, while an operation of `a` is running, is not handed out for a new node. -/
theorem C64_ends_loads_partial {c : Call} {fuel : Nat} {sp : Key} {p : Prog (Option Word)} (hp : p = minKeyP fuel sp ∨ p = maxKeyP fuel sp) {x : Nat}
    {k : Word → Prog (Option Word)} (hb : TBegins env TCalm a c τ σ) (hnb : 0 < τ.f.sys.st.nblocks)
    (hw : TWalks env TCalm (During a) τ σ p τ' σ' (.load x k)) {b : Nat} {sizes : List Nat} {r : List (Nat × Nat)} {st' : St}
    (hlt : b < τ'.f.sys.st.nalloc) (hsz : ∀ z ∈ sizes, 2 ≤ z ∧ z + 1 < blockSlots) (hn : newNodes τ'.f.sys.st b sizes = .ok (r, st')) {n z : Nat}
    (hz : (n, z) ∈ r) : ¬ (n ≤ x ∧ x < n + z) := by
  obtain ⟨s, s', h1, h2, h3, h4⟩ := (hw.fine tfits_calm hb.run).calmOf (hb.fine tfits_calm)
  obtain ⟨st2, h5⟩ := newNodes_of_relock h4 hn
  exact (C25_guarded_partial hp h1 (by rw [h3]; exact hnb) h2).2 b sizes r st2 (by rw [h4] at hlt; exact hlt) hsz h5 n z hz

/-- C64: the slot that a scan of `Next` is about to load, or the one before it, is not handed out for a new node. -/
theorem C64_next_loads_partial {fuel : Nat} {it : Iter} {x : Nat} {k : Word → Prog (Bool × Iter)} (hb : TBegins env TCalm a .walk τ σ)
    (hd : it.done = false) (hp : it.prefetched[it.pp]? = none) (hw : TWalks env TCalm (During a) τ σ (it.nextP fuel) τ' σ' (.load x k)) :
    ∃ y, (x = y ∨ x = y + 1) ∧ ∀ b sizes r st', b < τ'.f.sys.st.nalloc → (∀ z ∈ sizes, 2 ≤ z ∧ z + 1 < blockSlots) →
      newNodes τ'.f.sys.st b sizes = .ok (r, st') → ∀ n z, (n, z) ∈ r → ¬ (n ≤ y ∧ y < n + z) := by
  obtain ⟨s, s', h1, h2, _, h4⟩ := (hw.fine tfits_calm hb.run).calmOf (hb.fine tfits_calm)
  obtain ⟨y, g1, _, g2⟩ := C24_next_partial h1 hd hp h2
  refine ⟨y, g1, fun b sizes r st' hlt hsz hn n z hz => ?_⟩
  obtain ⟨st2, h5⟩ := newNodes_of_relock h4 hn
  exact g2 b sizes r st2 (by rw [h4] at hlt; exact hlt) hsz h5 n z hz

/-- C64 for iterators. -/
theorem C64_first_calls_partial {p : Key} {it : Iter} {out : List (Option Word)} {W : List Map} (h : TIterates env TCalm p τ σ it out W)
    (hl : out.length ≤ 257) : ∃ l m, out = l.map (fun x => some x.2) ++ List.replicate m none ∧ (∀ x ∈ l, env.fetch x.2 = x.1) ∧ (Lists W p l (0 < m) ∨
      ∃ k v, (l = [] ∨ l = [(k, v)]) ∧ (∃ M ∈ W, M k = some v) ∧ ¬ p <+: k ∧ ∀ k', p <+: k' → ∃ M ∈ W, M k' = none) := by
  obtain ⟨W1, h1, h2⟩ := h.fine tfits_calm
  obtain ⟨s, W', h3, h4⟩ := h1.calmOf
  have hm : ∀ M ∈ W', M ∈ W := fun M hM => h2 M (h4 M hM)
  obtain ⟨l, m, h5, h6, h7⟩ := C37_first_calls_partial h3 hl
  refine ⟨l, m, h5, h6, h7.imp (fun h => h.more hm) ?_⟩
  rintro ⟨k, v, g1, ⟨M, g2, g3⟩, g4, g5⟩
  refine ⟨k, v, g1, ⟨M, hm M g2, g3⟩, g4, fun k' hk' => ?_⟩
  obtain ⟨M', g6, g7⟩ := g5 k' hk'
  exact ⟨M', hm M' g6, g7⟩

/-- C64 for iterators: keys that are stored all the time are returned once. -/
theorem C64_exactly_once_partial {p : Key} {it : Iter} {out : List (Option Word)} {W : List Map} (h : TIterates env TCalm p τ σ it out W)
    (hl : out.length ≤ 257) {k : Key} (hp : p <+: k) (hk : ∀ M ∈ W, M k ≠ none) :
    returned env.fetch k out ≤ 1 ∧ (none ∈ out → returned env.fetch k out = 1) := by
  obtain ⟨W1, h1, h2⟩ := h.fine tfits_calm
  obtain ⟨s, W', h3, h4⟩ := h1.calmOf
  exact C37_exactly_once_partial h3 hl hp fun M hM => hk M (h2 M (h4 M hM))
end
end

/-! ## Readers while nodes are copied -/

/-- As `fwalkTrace`. -/
def twalkTrace {α : Type} (l : List Key) (g : TSys → TAct → Bool) (k : Sys → Ev → Bool) :
    List (Option TAct) → TSys → Spec → Prog α → Option (TSys × Spec × Prog α)
  | [], τ, σ, p => some (τ, σ, p)
  | some act :: acts, τ, σ, p =>
    if act.allowedB l τ && g τ act then
      match texec (fun v => l.getD (v.toNat % l.length) []) τ act with
      | some (.ok (τ', ev)) => if k τ'.f.sys ev then twalkTrace l g k acts τ' (σ.next ev) p else none
      | _ => none
    else none
  | none :: acts, τ, σ, p =>
    match p with
    | .root q => twalkTrace l g k acts τ σ (q τ.f.sys.st.root)
    | .blocks q => twalkTrace l g k acts τ σ (q τ.f.sys.st.nblocks)
    | .load x q => twalkTrace l g k acts τ σ (q (τ.f.sys.st.mem x))
    | .ret r => twalkTrace l g k acts τ σ (.ret r)

theorem TWalks.trans {env : Env} {α : Type} {H : TSys → TAct → Prop} {K : Sys → Ev → Prop} {τ τ1 τ2 : TSys} {σ σ1 σ2 : Spec} {p p1 p2 : Prog α}
    (h : TWalks env H K τ σ p τ1 σ1 p1) (h' : TWalks env H K τ1 σ1 p1 τ2 σ2 p2) : TWalks env H K τ σ p τ2 σ2 p2 := by
  induction h' with
  | refl => exact h
  | other _ h1 h2 h3 h4 ih => exact .other ih h1 h2 h3 h4
  | root _ ih => exact .root ih
  | blocks _ ih => exact .blocks ih
  | load _ ih => exact .load ih

theorem TAct.allowedB_sound {l h} {τ : TSys} {act : TAct} (hb : act.allowedB l τ = true) : act.allowed (Env.ofList l h) τ := by
  cases act with
  | load a x => trivial
  | act x => exact Radix.allowedB_sound hb

theorem TWalks.ofTrace {α : Type} {l h} {G : TSys → TAct → Prop} {g : TSys → TAct → Bool} {K : Sys → Ev → Prop} {k : Sys → Ev → Bool}
    (hg : ∀ τ σ act, TRun (Env.ofList l h) G τ σ → g τ act = true → G τ act) (hk : ∀ s ev, k s ev = true → K s ev) :
    ∀ {acts : List (Option TAct)} {τ : TSys} {σ : Spec} {p : Prog α} {τ' : TSys} {σ' : Spec} {p' : Prog α}, TRun (Env.ofList l h) G τ σ →
      twalkTrace l g k acts τ σ p = some (τ', σ', p') → TWalks (Env.ofList l h) G K τ σ p τ' σ' p'
  | [], τ, σ, p, τ', σ', p', _, ht => by
    simp only [twalkTrace, Option.some.injEq, Prod.mk.injEq] at ht
    obtain ⟨rfl, rfl, rfl⟩ := ht
    exact .refl
  | some act :: acts, τ, σ, p, τ', σ', p', hr, ht => by
    simp only [twalkTrace] at ht
    split at ht
    · rename_i hb
      simp only [Bool.and_eq_true] at hb
      split at ht
      · rename_i τ1 ev he
        split at ht
        · rename_i hk1
          have h1 := TAct.allowedB_sound (h := h) hb.1
          have h2 := hg _ _ _ hr hb.2
          exact (TWalks.other .refl h1 h2 he (hk _ _ hk1)).trans (TWalks.ofTrace hg hk (.step hr h1 h2 he) ht)
        · cases ht
      · cases ht
    · cases ht
  | none :: acts, τ, σ, .root q, τ', σ', p', hr, ht => (TWalks.root .refl).trans (TWalks.ofTrace hg hk (acts := acts) hr ht)
  | none :: acts, τ, σ, .blocks q, τ', σ', p', hr, ht => (TWalks.blocks .refl).trans (TWalks.ofTrace hg hk (acts := acts) hr ht)
  | none :: acts, τ, σ, .load x q, τ', σ', p', hr, ht => (TWalks.load .refl).trans (TWalks.ofTrace hg hk (acts := acts) hr ht)
  | none :: acts, τ, σ, .ret _, τ', σ', p', hr, ht => TWalks.ofTrace hg hk (acts := acts) hr ht

theorem tupdatesB_sound {env : Env} (τ : TSys) (σ : Spec) (act : TAct) (h : TRun env TTwoUpdates τ σ) (hb : tupdatesB τ act = true) : TTwoUpdates τ act := by
  cases act with
  | load a x => trivial
  | act x => exact twoUpdates_sound _ _ _ h.two.1 hb

/-- The insertion of "c" next to "a" and "b" at the root is under way, and the word for "a" has been loaded. -/
def tmidActs0 : List TAct :=
  List.map .act (fsetup ++ [.begin 1 (.update [99]), .arm 1] ++ List.replicate 8 (.step 1)) ++ [.load 1 11, .act (.begin 2 .walk)]

/-- "aac" is inserted. -/
def tmidActs1 : List TAct :=
  List.map .act ([.begin 0 (.update [97, 97, 99]), .arm 0] ++ List.replicate 19 (.step 0) ++ [.build 0 6, .commit 0])

/-- "c" is inserted. -/
def tmidActs2 : List TAct := [.load 1 12, .act (.build 1 4), .act (.commit 1), .act (.unlock 0), .act (.unlock 1)]

/-- The reader of allocator 2 loads `i` words before, `j` words between and `m` words after `acts1` and `acts2`. -/
def tmidWalkB {α : Type} (g : TSys → TAct → Bool) (acts0 acts1 acts2 : List TAct) (p : Prog α) (i j m : Nat) (check : TSys → Spec → Prog α → Bool) : Bool :=
  match twalkTrace raceKeys g (fun _ _ => true) (acts0.map some) (TSys.new 4) .init (.ret (.ok ()) : Prog Unit) with
  | some (τ0, σ0, _) =>
    TAct.allowedB raceKeys τ0 (.act (.arm 2)) && g τ0 (.act (.arm 2)) &&
      match texec (fun v => raceKeys.getD (v.toNat % raceKeys.length) []) τ0 (.act (.arm 2)) with
      | some (.ok (τ, .begun 2 .walk)) =>
        match twalkTrace raceKeys g (duringB 2) (List.replicate i none ++ acts1.map some ++ List.replicate j none ++
            acts2.map some ++ List.replicate m none) τ (σ0.next (.begun 2 .walk)) p with
        | some (τ', σ', p') => decide (0 < τ.f.sys.st.nblocks) && check τ' σ' p'
        | none => false
      | _ => false
  | none => false

theorem tmidWalk {α : Type} {G : TSys → TAct → Prop} {g : TSys → TAct → Bool} (hg : ∀ τ σ act, TRun raceEnv G τ σ → g τ act = true → G τ act)
    {acts0 acts1 acts2 : List TAct} {p : Prog α} {i j m : Nat} {check : TSys → Spec → Prog α → Bool}
    (hc : tmidWalkB g acts0 acts1 acts2 p i j m check = true) :
    ∃ τ0 σ0 τ τ' σ' p', TRun raceEnv G τ0 σ0 ∧ TAct.allowed raceEnv τ0 (.act (.arm 2)) ∧ G τ0 (.act (.arm 2)) ∧
      texec raceEnv.fetch τ0 (.act (.arm 2)) = some (.ok (τ, .begun 2 .walk)) ∧
      0 < τ.f.sys.st.nblocks ∧ TWalks raceEnv G (During 2) τ (σ0.next (.begun 2 .walk)) p τ' σ' p' ∧ check τ' σ' p' = true := by
  unfold tmidWalkB at hc
  split at hc
  · rename_i τ0 σ0 _ ht
    simp only [Bool.and_eq_true] at hc
    obtain ⟨⟨h1, h2⟩, hc⟩ := hc
    have hr := (TWalks.ofTrace (h := raceKeys_good) (K := fun _ _ => True) hg (fun _ _ _ => trivial) (.init 4) ht).run (.init 4)
    split at hc
    · rename_i τ he
      split at hc
      · rename_i τ' σ' p' hw
        simp only [Bool.and_eq_true, decide_eq_true_eq] at hc
        have h3 := TAct.allowedB_sound (h := raceKeys_good) h1
        have h4 := hg _ _ _ hr h2
        exact ⟨τ0, σ0, τ, τ', σ', p', hr, h3, h4, he, hc.1, TWalks.ofTrace hg duringB_sound (TRun.step (act := .act (.arm 2)) hr h3 h4 he) hw, hc.2⟩
      · cases hc
    · cases hc
  · cases hc

/-- Both keys are stored when `Count("")` ends, and it has counted one of them besides the four that were there before. -/
example : ∃ τ σ τ' σ' c, TBegins raceEnv TTwoUpdates 2 .walk τ σ ∧ TWalks raceEnv TTwoUpdates (During 2) τ σ (countP 20 []) τ' σ' (.ret (.ok c)) ∧
    c.leaves = 5 ∧ σ'.map [99] = some 4 ∧ σ'.map [97, 97, 99] = some 6 := by
  obtain ⟨τ0, σ0, τ, τ', σ', p', h1, h2, h3, h4, _, h5, h6⟩ := tmidWalk (G := TTwoUpdates) tupdatesB_sound (acts0 := tmidActs0) (acts1 := tmidActs1)
    (acts2 := tmidActs2) (p := countP 20 []) (i := 3) (j := 3) (m := 30)
    (check := fun _ σ' p' => decide (σ'.map [99] = some 4) && decide (σ'.map [97, 97, 99] = some 6) && resultB (fun c => c.leaves == 5) p') (by decide +kernel)
  simp only [Bool.and_eq_true, decide_eq_true_eq] at h6
  obtain ⟨c, rfl, h⟩ := resultB_sound h6.2
  exact ⟨τ, _, τ', σ', c, ⟨τ0, σ0, h1, h2, h3, h4, rfl⟩, h5, eq_of_beq h, h6.1.1, h6.1.2⟩

/-- Six calls of `Next` beside the two inserts. -/
example : ∃ τ σ it W, TIterates raceEnv TTwoUpdates [] τ σ it [some 0, some 1, some 6, some 2, some 3, none] W ∧ σ.map [99] = some 4 := by
  obtain ⟨τ0, σ0, τ, τ', σ', p', h1, h2, h3, h4, _, h5, h6⟩ := tmidWalk (G := TTwoUpdates) tupdatesB_sound (acts0 := tmidActs0) (acts1 := tmidActs1)
    (acts2 := tmidActs2) (p := (Iter.new []).nextP 20) (i := 3) (j := 3) (m := 30)
    (check := fun _ σ' p' => decide (σ'.map [99] = some 4) && resultB (fun c => c == (true, ⟨[], 0, [0, 1, 6, 2, 3], 1, [], true⟩)) p') (by decide +kernel)
  simp only [Bool.and_eq_true, decide_eq_true_eq] at h6
  obtain ⟨c, rfl, h⟩ := resultB_sound h6.2
  obtain rfl := eq_of_beq h
  have k1 := (TIterates.new (p := []) h1).scan rfl rfl h2 h3 h4 h5
  exact ⟨_, _, _, _, ((((k1.cached (.inr rfl) rfl).cached (.inr rfl) rfl).cached (.inr rfl) rfl).cached (.inr rfl) rfl).cached (.inr rfl) rfl, h6.1⟩

/-- A delete of "ab" is under way as well. -/
def tmidActs3 : List TAct := List.map .act ([.begin 3 (.delete [97, 98]), .arm 3] ++ List.replicate 5 (.step 3)) ++ tmidActs1

/-- `Count("")` beside two updates and a delete. -/
example : ∃ τ σ τ' σ' c, TBegins raceEnv TCalm 2 .walk τ σ ∧ TWalks raceEnv TCalm (During 2) τ σ (countP 20 []) τ' σ' (.ret (.ok c)) ∧
    c.leaves = 5 ∧ σ'.map [99] = some 4 ∧ σ'.map [97, 97, 99] = some 6 ∧ (τ'.f.sys.proc 3).deleting = true := by
  obtain ⟨τ0, σ0, τ, τ', σ', p', h1, h2, h3, h4, _, h5, h6⟩ := tmidWalk (G := TCalm) (fun _ _ _ => tcalmB_sound) (acts0 := tmidActs0) (acts1 := tmidActs3)
    (acts2 := tmidActs2) (p := countP 20 []) (i := 3) (j := 3) (m := 30)
    (check := fun τ' σ' p' => (decide (σ'.map [99] = some 4) && decide (σ'.map [97, 97, 99] = some 6) && (τ'.f.sys.proc 3).deleting) &&
      resultB (fun c => c.leaves == 5) p') (by decide +kernel)
  simp only [Bool.and_eq_true, decide_eq_true_eq] at h6
  obtain ⟨c, rfl, h⟩ := resultB_sound h6.2
  exact ⟨τ, _, τ', σ', c, ⟨τ0, σ0, h1, h2, h3, h4, rfl⟩, h5, eq_of_beq h, h6.1.1.1, h6.1.1.2, h6.1.2⟩

/-- It is about to load a slot. -/
example : ∃ τ σ τ' σ' k, TBegins raceEnv TCalm 2 .walk τ σ ∧ TWalks raceEnv TCalm (During 2) τ σ (countP 20 []) τ' σ' (.load 13 k) ∧ σ'.map [99] = some 4 := by
  obtain ⟨τ0, σ0, τ, τ', σ', p', h1, h2, h3, h4, _, h5, h6⟩ := tmidWalk (G := TCalm) (fun _ _ _ => tcalmB_sound) (acts0 := tmidActs0) (acts1 := tmidActs3)
    (acts2 := tmidActs2) (p := countP 20 []) (i := 3) (j := 3) (m := 0)
    (check := fun _ σ' p' => decide (σ'.map [99] = some 4) && loadsB 13 p') (by decide +kernel)
  simp only [Bool.and_eq_true, decide_eq_true_eq] at h6
  obtain ⟨k, rfl⟩ := loadsB_sound h6.2
  exact ⟨τ, _, τ', σ', k, ⟨τ0, σ0, h1, h2, h3, h4, rfl⟩, h5, h6.1⟩

/-- `MinKey("")` and the first call of `Next` are about to load a slot. -/
example : ∃ τ σ τ' σ' k, TBegins raceEnv TCalm 2 .walk τ σ ∧ 0 < τ.f.sys.st.nblocks ∧ TWalks raceEnv TCalm (During 2) τ σ (minKeyP 20 []) τ' σ' (.load 13 k) := by
  obtain ⟨τ0, σ0, τ, τ', σ', p', h1, h2, h3, h4, h0, h5, h6⟩ := tmidWalk (G := TCalm) (fun _ _ _ => tcalmB_sound) (acts0 := tmidActs0) (acts1 := tmidActs3)
    (acts2 := tmidActs2) (p := minKeyP 20 []) (i := 3) (j := 3) (m := 0) (check := fun _ _ p' => loadsB 13 p') (by decide +kernel)
  obtain ⟨k, rfl⟩ := loadsB_sound h6
  exact ⟨τ, _, τ', σ', k, ⟨τ0, σ0, h1, h2, h3, h4, rfl⟩, h0, h5⟩

example : ∃ τ σ τ' σ' k, TBegins raceEnv TCalm 2 .walk τ σ ∧ (Iter.new []).done = false ∧ (Iter.new []).prefetched[(Iter.new []).pp]? = none ∧
    TWalks raceEnv TCalm (During 2) τ σ ((Iter.new []).nextP 20) τ' σ' (.load 13 k) ∧ σ'.map [99] = some 4 := by
  obtain ⟨τ0, σ0, τ, τ', σ', p', h1, h2, h3, h4, _, h5, h6⟩ := tmidWalk (G := TCalm) (fun _ _ _ => tcalmB_sound) (acts0 := tmidActs0) (acts1 := tmidActs3)
    (acts2 := tmidActs2) (p := (Iter.new []).nextP 20) (i := 3) (j := 3) (m := 0)
    (check := fun _ σ' p' => decide (σ'.map [99] = some 4) && loadsB 13 p') (by decide +kernel)
  simp only [Bool.and_eq_true, decide_eq_true_eq] at h6
  obtain ⟨k, rfl⟩ := loadsB_sound h6.2
  exact ⟨τ, _, τ', σ', k, ⟨τ0, σ0, h1, h2, h3, h4, rfl⟩, rfl, rfl, h5, h6.1⟩

/-- `MinKey("")` and `MaxKey("")` beside two updates and a delete; the latter returns "b", since it has loaded the root before "c" was stored. -/
example : ∃ τ σ τ' σ', TBegins raceEnv TCalm 2 .walk τ σ ∧ 0 < τ.f.sys.st.nblocks ∧
    TWalks raceEnv TCalm (During 2) τ σ (minKeyP 20 []) τ' σ' (.ret (.ok (some 0))) := by
  obtain ⟨τ0, σ0, τ, τ', σ', p', h1, h2, h3, h4, h0, h5, h6⟩ := tmidWalk (G := TCalm) (fun _ _ _ => tcalmB_sound) (acts0 := tmidActs0) (acts1 := tmidActs3)
    (acts2 := tmidActs2) (p := minKeyP 20 []) (i := 2) (j := 3) (m := 30) (check := fun _ _ p' => resultB (fun c => c == some 0) p') (by decide +kernel)
  obtain ⟨c, rfl, h⟩ := resultB_sound h6
  obtain rfl := eq_of_beq h
  exact ⟨τ, _, τ', σ', ⟨τ0, σ0, h1, h2, h3, h4, rfl⟩, h0, h5⟩

example : ∃ τ σ τ' σ', TBegins raceEnv TCalm 2 .walk τ σ ∧ 0 < τ.f.sys.st.nblocks ∧
    TWalks raceEnv TCalm (During 2) τ σ (maxKeyP 20 []) τ' σ' (.ret (.ok (some 3))) ∧ σ'.map [99] = some 4 := by
  obtain ⟨τ0, σ0, τ, τ', σ', p', h1, h2, h3, h4, h0, h5, h6⟩ := tmidWalk (G := TCalm) (fun _ _ _ => tcalmB_sound) (acts0 := tmidActs0) (acts1 := tmidActs3)
    (acts2 := tmidActs2) (p := maxKeyP 20 []) (i := 2) (j := 3) (m := 30)
    (check := fun _ σ' p' => decide (σ'.map [99] = some 4) && resultB (fun c => c == some 3) p') (by decide +kernel)
  simp only [Bool.and_eq_true, decide_eq_true_eq] at h6
  obtain ⟨c, rfl, h⟩ := resultB_sound h6.2
  obtain rfl := eq_of_beq h
  exact ⟨τ, _, τ', σ', ⟨τ0, σ0, h1, h2, h3, h4, rfl⟩, h0, h5, h6.1⟩

/-- Six calls of `Next` beside two updates and a delete. -/
example : ∃ τ σ it W, TIterates raceEnv TCalm [] τ σ it [some 0, some 1, some 6, some 2, some 3, none] W ∧ σ.map [99] = some 4 := by
  obtain ⟨τ0, σ0, τ, τ', σ', p', h1, h2, h3, h4, _, h5, h6⟩ := tmidWalk (G := TCalm) (fun _ _ _ => tcalmB_sound) (acts0 := tmidActs0) (acts1 := tmidActs3)
    (acts2 := tmidActs2) (p := (Iter.new []).nextP 20) (i := 3) (j := 3) (m := 30)
    (check := fun _ σ' p' => decide (σ'.map [99] = some 4) && resultB (fun c => c == (true, ⟨[], 0, [0, 1, 6, 2, 3], 1, [], true⟩)) p') (by decide +kernel)
  simp only [Bool.and_eq_true, decide_eq_true_eq] at h6
  obtain ⟨c, rfl, h⟩ := resultB_sound h6.2
  obtain rfl := eq_of_beq h
  have k1 := (TIterates.new (p := []) h1).scan rfl rfl h2 h3 h4 h5
  exact ⟨_, _, _, _, ((((k1.cached (.inr rfl) rfl).cached (.inr rfl) rfl).cached (.inr rfl) rfl).cached (.inr rfl) rfl).cached (.inr rfl) rfl, h6.1⟩

/-! ## The full statement -/

/-- Lookups and walks wait for the first memory block. -/
def TReady (τ : TSys) (act : TAct) : Prop :=
  ∀ a c, act = .act (.begin a c) → (c = .walk ∨ ∃ key, c = .lookup key) → 0 < τ.f.sys.st.nblocks

/-- C64 in full, its part about `Count`. -/
def C64_statement : Prop :=
  ∀ (env : Env) (a : Nat) (τ τ' : TSys) (σ σ' : Spec) (fuel : Nat) (sp : Key) (r : Res Counter), TBegins env TReady a .walk τ σ →
    TWalks env TReady (During a) τ σ (countP fuel sp) τ' σ' (.ret r) →
    r = .error .fuel ∨ ∃ c, r = .ok c ∧ (CountsBetween (σ'.window a) sp c.leaves ∨
      (c.leaves = 1 ∧ sp ≠ [] ∧ ∀ k, sp <+: k → ∃ M ∈ σ'.window a, M k = none))

def treadyB (τ : TSys) : TAct → Bool
  | .act (.begin _ (.lookup _)) => decide (0 < τ.f.sys.st.nblocks)
  | .act (.begin _ .walk) => decide (0 < τ.f.sys.st.nblocks)
  | _ => true

theorem treadyB_sound {τ : TSys} {act : TAct} (hb : treadyB τ act = true) : TReady τ act := by
  rintro a c rfl (rfl | ⟨key, rfl⟩)
  · exact of_decide_eq_true hb
  · exact of_decide_eq_true hb

/-- The race of C09, and then a walk begins. -/
def traceActs : List TAct := List.map .act (fraceActs ++ [.begin 2 .walk])

/-- C64 does not hold in full: after the race of C09 a `Count` of the key that has been lost is 0. -/
theorem C64_does_not_hold : ¬ C64_statement := by
  intro hall
  obtain ⟨τ0, σ0, τ, τ', σ', p', h1, h2, h3, h4, _, h5, h6⟩ := tmidWalk (G := TReady) (fun _ _ _ _ => treadyB_sound) (acts0 := traceActs) (acts1 := [])
    (acts2 := []) (p := countP 20 [97, 97, 99]) (i := 60) (j := 0) (m := 0)
    (check := fun _ σ' p' => decide (∀ M ∈ σ'.window 2, M [97, 97, 99] = some 6) && resultB (fun c => c.leaves == 0) p') (by decide +kernel)
  simp only [Bool.and_eq_true, decide_eq_true_eq] at h6
  obtain ⟨c, rfl, h⟩ := resultB_sound h6.2
  rcases hall raceEnv 2 τ τ' _ σ' 20 _ _ ⟨τ0, σ0, h1, h2, h3, h4, rfl⟩ h5 with e | ⟨c', e, h7 | ⟨h7, _⟩⟩
  · cases e
  · cases e
    obtain ⟨l, _, g2, _, g4⟩ := h7
    rw [eq_of_beq h] at g2
    have := g4 [97, 97, 99] (List.prefix_refl _) fun M hM => by rw [h6.1 M hM]; simp
    rw [List.eq_nil_of_length_eq_zero g2.symm] at this
    cases this
  · cases e
    rw [eq_of_beq h] at h7
    cases h7

end Radix
