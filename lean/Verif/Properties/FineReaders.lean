import Verif.Sys.FineWalks
import Verif.Properties.Two
import Verif.Properties.Results
/-!
# Readers beside two updates or one delete, access by access

C63.  `FWalks env FTwoUpdates K f σ p f' σ' p'` (Sys/FineWalks.lean): from the state `f` on, the reader `p` and other operations run; every load of the
reader, and every access of the others to shared memory, is a step of its own, and the steps are interleaved in any way.  At most two updates, or one delete,
are under way at a time; the number of lookups and of other readers is not restricted.
-/
set_option autoImplicit false
namespace Radix
open T

section
variable {env : Env} {a : Nat} {f f' : FSys} {σ σ' : Spec}

/-- C63 for `Count`: a `Count` that ends returns the number of keys in a set that contains all keys stored all the time, and only keys stored at some time;
except that it may return 1 for a prefix for which no key was stored all the time. -/
theorem C63_count {fuel : Nat} {sp : Key} {r : Res Counter} (hb : FBegins env FTwoUpdates a .walk f σ)
    (hw : FWalks env FTwoUpdates (During a) f σ (countP fuel sp) f' σ' (.ret r)) :
    r = .error .fuel ∨ ∃ c, r = .ok c ∧ (CountsBetween (σ'.window a) sp c.leaves ∨
      (c.leaves = 1 ∧ sp ≠ [] ∧ ∀ k, sp <+: k → ∃ M ∈ σ'.window a, M k = none)) := by
  obtain ⟨s, s', h1, h2, _⟩ := hw.calm hb
  exact C42_partial h1 h2

/-- C63 for `MinKey`: a value that is returned was stored at some time, and its key is not greater than any key with the prefix that was stored all the time. -/
theorem C63_min {c : Call} {fuel : Nat} {sp : Key} {r : Res (Option Word)} (hb : FBegins env FTwoUpdates a c f σ) (hnb : 0 < f.sys.st.nblocks)
    (hw : FWalks env FTwoUpdates (During a) f σ (minKeyP fuel sp) f' σ' (.ret r)) :
    r = .error .fuel ∨ ∃ o, r = .ok o ∧ ∀ v, o = some v →
      ∃ k, (∃ M ∈ σ'.window a, M k = some v) ∧ ∀ k', sp <+: k' → (∀ M ∈ σ'.window a, M k' ≠ none) → sp <+: k ∧ ¬ k' < k := by
  obtain ⟨s, s', h1, h2, h3, _⟩ := hw.calm hb
  exact C43_min_partial h1 (by rw [h3]; exact hnb) h2

/-- C63 for `MaxKey`, in the same way. -/
theorem C63_max {c : Call} {fuel : Nat} {sp : Key} {r : Res (Option Word)} (hb : FBegins env FTwoUpdates a c f σ) (hnb : 0 < f.sys.st.nblocks)
    (hw : FWalks env FTwoUpdates (During a) f σ (maxKeyP fuel sp) f' σ' (.ret r)) :
    r = .error .fuel ∨ ∃ o, r = .ok o ∧ ∀ v, o = some v →
      ∃ k, (∃ M ∈ σ'.window a, M k = some v) ∧ ∀ k', sp <+: k' → (∀ M ∈ σ'.window a, M k' ≠ none) → sp <+: k ∧ ¬ k < k' := by
  obtain ⟨s, s', h1, h2, h3, _⟩ := hw.calm hb
  exact C43_max_partial h1 (by rw [h3]; exact hnb) h2

/-! ## Memory -/

theorem newNodes_relock (L : Nat → Nat → Int) (r : Int) (b : Nat) : ∀ (sizes : List Nat) (st : St),
    newNodes (st.relock L r) b sizes = (newNodes st b sizes).map fun x => (x.1, x.2.relock L r)
  | [], _ => rfl
  | size :: l, st => by
    unfold newNodes
    rw [newNode_relock]
    cases st.newNode b size with
    | error e => rfl
    | ok x =>
      obtain ⟨n, st1⟩ := x
      simp only [Except.map, bind, Except.bind]
      rw [newNodes_relock L r b l st1]
      cases newNodes st1 b l with
      | error e => rfl
      | ok x => rfl

/-- Memory handed out in the state of one system is handed out in the state of the other. -/
theorem newNodes_of_relock {s' : Sys} (he : f'.sys = s'.relock f'.sys.st.locks f'.sys.st.rootLock) {b : Nat} {sizes : List Nat} {r : List (Nat × Nat)} {st' : St}
    (hn : newNodes f'.sys.st b sizes = .ok (r, st')) : ∃ st2, newNodes s'.st b sizes = .ok (r, st2) := by
  have e : f'.sys.st = s'.st.relock f'.sys.st.locks f'.sys.st.rootLock := congrArg Sys.st he
  rw [e, newNodes_relock] at hn
  cases hx : newNodes s'.st b sizes with
  | error e => rw [hx] at hn; cases hn
  | ok x => rw [hx] at hn; cases hn; exact ⟨_, rfl⟩

/-- C63: the slot that a `Count` is about to load is not handed out for a new node. -/
theorem C63_count_loads {fuel : Nat} {sp : Key} {x : Nat} {k : Word → Prog Counter} (hb : FBegins env FTwoUpdates a .walk f σ)
    (hw : FWalks env FTwoUpdates (During a) f σ (countP fuel sp) f' σ' (.load x k)) {b : Nat} {sizes : List Nat} {r : List (Nat × Nat)} {st' : St}
    (hlt : b < f'.sys.st.nalloc) (hsz : ∀ z ∈ sizes, 2 ≤ z ∧ z + 1 < blockSlots) (hn : newNodes f'.sys.st b sizes = .ok (r, st')) {n z : Nat}
    (hz : (n, z) ∈ r) : ¬ (n ≤ x ∧ x < n + z) := by
  obtain ⟨s, s', h1, h2, _, h4⟩ := hw.calm hb
  obtain ⟨st2, h5⟩ := newNodes_of_relock h4 hn
  exact (C24_count_partial h1 h2).2 b sizes r st2 (by rw [h4] at hlt; exact hlt) hsz h5 n z hz

/-- C63: the slot that a `MinKey` or `MaxKey` is about to load, while an operation of `a` is running, is not handed out for a new node. -/
theorem C63_ends_loads {c : Call} {fuel : Nat} {sp : Key} {p : Prog (Option Word)} (hp : p = minKeyP fuel sp ∨ p = maxKeyP fuel sp) {x : Nat}
    {k : Word → Prog (Option Word)} (hb : FBegins env FTwoUpdates a c f σ) (hnb : 0 < f.sys.st.nblocks)
    (hw : FWalks env FTwoUpdates (During a) f σ p f' σ' (.load x k)) {b : Nat} {sizes : List Nat} {r : List (Nat × Nat)} {st' : St}
    (hlt : b < f'.sys.st.nalloc) (hsz : ∀ z ∈ sizes, 2 ≤ z ∧ z + 1 < blockSlots) (hn : newNodes f'.sys.st b sizes = .ok (r, st')) {n z : Nat}
    (hz : (n, z) ∈ r) : ¬ (n ≤ x ∧ x < n + z) := by
  obtain ⟨s, s', h1, h2, h3, h4⟩ := hw.calm hb
  obtain ⟨st2, h5⟩ := newNodes_of_relock h4 hn
  exact (C25_guarded_partial hp h1 (by rw [h3]; exact hnb) h2).2 b sizes r st2 (by rw [h4] at hlt; exact hlt) hsz h5 n z hz

/-- C63: the slot that a scan of `Next` is about to load, or the one before it, is not handed out for a new node. -/
theorem C63_next_loads {fuel : Nat} {it : Iter} {x : Nat} {k : Word → Prog (Bool × Iter)} (hb : FBegins env FTwoUpdates a .walk f σ) (hd : it.done = false)
    (hp : it.prefetched[it.pp]? = none) (hw : FWalks env FTwoUpdates (During a) f σ (it.nextP fuel) f' σ' (.load x k)) :
    ∃ y, (x = y ∨ x = y + 1) ∧ ∀ b sizes r st', b < f'.sys.st.nalloc → (∀ z ∈ sizes, 2 ≤ z ∧ z + 1 < blockSlots) →
      newNodes f'.sys.st b sizes = .ok (r, st') → ∀ n z, (n, z) ∈ r → ¬ (n ≤ y ∧ y < n + z) := by
  obtain ⟨s, s', h1, h2, _, h4⟩ := hw.calm hb
  obtain ⟨y, g1, _, g2⟩ := C24_next_partial h1 hd hp h2
  refine ⟨y, g1, fun b sizes r st' hlt hsz hn n z hz => ?_⟩
  obtain ⟨st2, h5⟩ := newNodes_of_relock h4 hn
  exact g2 b sizes r st2 (by rw [h4] at hlt; exact hlt) hsz h5 n z hz
end

/-! ## Iterators -/

/-- As `Iterates` (Properties/Results.lean), with every access of the other operations a step. -/
inductive FIterates (env : Env) (H : FSys → FAct → Prop) (p : Key) : FSys → Spec → Iter → List (Option Word) → List Map → Prop
  | new {f σ} : FRun env H f σ → FIterates env H p f σ (Iter.new p) [] [σ.map]
  | other {f σ it out W act f' ev} : FIterates env H p f σ it out W → env.Allowed f.sys act.act → H f act → fexec env.fetch f act = some (.ok (f', ev)) →
      FIterates env H p f' (σ.next ev) it out ((σ.next ev).map :: W)
  | cached {f σ it out W b it'} : FIterates env H p f σ it out W → it.prefetched[it.pp]? ≠ none ∨ it.done = true → it.nextP 0 = .ret (.ok (b, it')) →
      FIterates env H p f σ it' (out ++ [if b then some it'.value else none]) W
  | scan {f0 σ0 it out W a f fuel f' σ' b it'} : FIterates env H p f0 σ0 it out W → it.prefetched[it.pp]? = none → it.done = false →
      env.Allowed f0.sys (.arm a) → H f0 (.arm a) → fexec env.fetch f0 (.arm a) = some (.ok (f, .begun a .walk)) →
      FWalks env H (During a) f (σ0.next (.begun a .walk)) (it.nextP fuel) f' σ' (.ret (.ok (b, it'))) →
      FIterates env H p f' σ' it' (out ++ [if b then some it'.value else none]) (σ'.window a ++ W)

section
variable {env : Env} {p : Key}

theorem Iterates.weaken {s : Sys} {σ : Spec} {it : Iter} {out : List (Option Word)} {W : List Map} (h : Iterates env TwoUpdates p s σ it out W) :
    Iterates env Calm p s σ it out W := by
  induction h with
  | new h => exact .new h.twoUpdates.1
  | other h h1 h2 h3 ih =>
    obtain ⟨_, t, seen, hI, hM⟩ := h.run.twoUpdates
    exact .other ih h1 (hM.calm hI h2) h3
  | cached _ h1 h2 ih => exact .cached ih h1 h2
  | @scan _ σ0 it out W a s _ _ _ _ _ h h1 h2 h3 h4 h5 h6 ih =>
    exact .scan ih h1 h2 h3 trivial h5 (h6.weaken (Run.step (act := .arm a) h.run h3 h4 h5))

/-- The map is among the maps of an operation that is running. -/
theorem FWalks.window {H : FSys → FAct → Prop} {K : Sys → Ev → Prop} {α : Type} {a : Nat} {f f' : FSys} {σ σ' : Spec} {q q' : Prog α}
    (h : FWalks env H K f σ q f' σ' q') (hm : σ.map ∈ σ.window a) : σ'.map ∈ σ'.window a := by
  induction h with
  | refl => exact hm
  | @other _ σ1 _ _ _ ev _ _ _ _ _ ih =>
    cases ev with
    | none => exact ih
    | begun b c =>
      simp only [Spec.next]
      by_cases hb : a = b
      · subst hb; rw [upd_same]; exact List.mem_singleton.2 rfl
      · rw [upd_of_ne _ _ hb]; exact ih
    | put k v => exact List.mem_cons_self ..
    | del k => exact List.mem_cons_self ..
  | root _ ih => exact ih
  | blocks _ ih => exact ih
  | load _ ih => exact ih

/-- The iterator with coarse steps of the others. -/
theorem FIterates.rel {H : FSys → FAct → Prop} {G : Sys → Act → Prop} [FineG G] (hH : FFits env H G)
    (hB : ∀ {a c s σ}, Begins env G a c s σ → Begins env Calm a c s σ) {f : FSys} {σ : Spec} {it : Iter} {out : List (Option Word)} {W : List Map} (h : FIterates env H p f σ it out W) :
    σ.map ∈ W ∧ ∃ s t seen, FRelX env (fun s σ => ∃ W', Iterates env G p s σ it out W' ∧ ∀ M ∈ W', M ∈ W ∨ M = σ.map) f s σ t seen := by
  induction h with
  | new h =>
    obtain ⟨s, t, seen, hF⟩ := h.relOf hH
    exact ⟨List.mem_singleton.2 rfl, s, t, seen, hF.map ⟨_, .new hF.run, fun M hM => .inl hM⟩⟩
  | @other f σ it out W act f' ev _ h1 h2 h3 ih =>
    obtain ⟨hm, s1, t1, seen1, hX⟩ := ih
    refine ⟨List.mem_cons_self .., ?_⟩
    have hF1 : FRel env G f s1 σ t1 seen1 := hX.map hX.run.choose_spec.1.run
    haveI : FineX env (fun s σ => ∃ W', Iterates env G p s σ it out W' ∧ ∀ M ∈ W', M ∈ W ∨ M = σ.map) :=
      ⟨fun {_ _ b _} ⟨_, g1, g2⟩ hc he _ => ⟨_, Iterates.other (act := .run b) (ev := .none) g1 trivial (FineG.run hc) he, fun M hM => by
          rcases List.mem_cons.1 hM with rfl | hM
          · exact .inr rfl
          · exact g2 M hM⟩,
        fun {_ _ b _} ⟨_, g1, g2⟩ he _ => ⟨_, Iterates.other (act := .slip b) (ev := .none) g1 trivial FineG.slip he, fun M hM => by
          rcases List.mem_cons.1 hM with rfl | hM
          · exact .inr rfl
          · exact g2 M hM⟩⟩
    by_cases hst : ∃ b, act = .step b
    · obtain ⟨b, rfl⟩ := hst
      have hd := hX.fexec h1 (hH hF1 h2).1 h3 fun hn => absurd rfl (hn b)
      rcases hd with ⟨_, _, s', t', seen', e, hX'⟩ | ⟨_, e, _⟩
      · cases e
        refine ⟨s', t', seen', hX'.map ?_⟩
        obtain ⟨W', g1, g2⟩ := hX'.run
        exact ⟨W', g1, fun M hM => (g2 M hM).imp (List.mem_cons_of_mem _) id⟩
      · cases e
    · have hn : ∀ b, act ≠ .step b := fun b e => hst ⟨b, e⟩
      have hd := hX.whole (Y := fun s σ' => ∃ W', Iterates env G p s σ' it out W' ∧ ∀ M ∈ W', M ∈ (σ.next ev).map :: W ∨ M = σ'.map) hn h1
        (hH hF1 h2).1 h3 fun f' s' ev' g1 _ g3 g4 _ => by
          cases g4
          obtain ⟨W', k1, k2⟩ := hX.run
          refine ⟨_, k1.other g1 ((hH hF1 h2).2 hn) g3, fun M hM => ?_⟩
          rcases List.mem_cons.1 hM with rfl | hM
          · exact .inr rfl
          · refine .inl (List.mem_cons_of_mem _ ?_)
            rcases k2 M hM with h | rfl
            · exact h
            · exact hm
      rcases hd with ⟨_, _, s', t', seen', e, hX'⟩ | ⟨_, e, _⟩
      · cases e; exact ⟨s', t', seen', hX'⟩
      · cases e
  | cached _ h1 h2 ih =>
    obtain ⟨hm, s1, t1, seen1, hX⟩ := ih
    refine ⟨hm, s1, t1, seen1, hX.map ?_⟩
    obtain ⟨W', g1, g2⟩ := hX.run
    exact ⟨W', g1.cached h1 h2, g2⟩
  | @scan f0 σ0 it out W a f fuel f' σ' b it' _ h1 h2 h3 h4 h5 h6 ih =>
    obtain ⟨hm, s0, t0, seen0, hX⟩ := ih
    obtain ⟨W', g1, g2⟩ := hX.run
    have hF0 : FRel env G f0 s0 σ0 t0 seen0 := hX.map g1.run
    have hG : G s0 (.arm a) := (hH hF0 h4).2 (by simp)
    obtain ⟨s, t, seen, hY⟩ := hF0.begins h3 h5
    have hb : Begins env G a .walk s (σ0.next (.begun a .walk)) := ⟨s0, σ0, g1.run, trivial, hG, hY.run, rfl⟩
    have hF : FRel env G f s (σ0.next (.begun a .walk)) t seen :=
      hY.map (Run.step (act := .arm a) (ev := .begun a .walk) g1.run trivial hG hY.run)
    have hmem := h6.window (a := a) (by simp [Spec.next, upd_same])
    obtain ⟨s', t', seen', hZ⟩ := h6.rel hH hF (hB hb).inv.2.choose_spec.choose_spec.2.2
    refine ⟨List.mem_append_left _ hmem, s', t', seen', hZ.map ⟨_, g1.scan h1 h2 trivial hG hY.run hZ.run.2, fun M hM => .inl ?_⟩⟩
    rcases List.mem_append.1 hM with hM | hM
    · exact List.mem_append_left _ hM
    · refine List.mem_append_right _ ?_
      rcases g2 M hM with h | rfl
      · exact h
      · exact hm

theorem FIterates.calm {f : FSys} {σ : Spec} {it : Iter} {out : List (Option Word)} {W : List Map} (h : FIterates env FTwoUpdates p f σ it out W) :
    ∃ s W', Iterates env Calm p s σ it out W' ∧ ∀ M ∈ W', M ∈ W := by
  obtain ⟨hm, s, t, seen, hX⟩ := h.rel ffits_two (fun h => h.weaken)
  obtain ⟨W', g1, g2⟩ := hX.run
  refine ⟨s, W', g1.weaken, fun M hM => ?_⟩
  rcases g2 M hM with h | rfl
  · exact h
  · exact hm

/-- The same for calm operations. -/
theorem FIterates.calmOf {f : FSys} {σ : Spec} {it : Iter} {out : List (Option Word)} {W : List Map} (h : FIterates env FCalm p f σ it out W) :
    ∃ s W', Iterates env Calm p s σ it out W' ∧ ∀ M ∈ W', M ∈ W := by
  obtain ⟨hm, s, t, seen, hX⟩ := h.rel ffits_calm id
  obtain ⟨W', g1, g2⟩ := hX.run
  refine ⟨s, W', g1, fun M hM => ?_⟩
  rcases g2 M hM with h | rfl
  · exact h
  · exact hm

/-- C63 for iterators: the results of the first 257 calls of `Next` are values of keys with the prefix, in ascending order, each stored at some time, and no
key that is stored all the time is left out; except that the iterator may return one value of another key if no key with the prefix is stored all the time. -/
theorem C63_first_calls {f : FSys} {σ : Spec} {it : Iter} {out : List (Option Word)} {W : List Map} (h : FIterates env FTwoUpdates p f σ it out W)
    (hl : out.length ≤ 257) : ∃ l m, out = l.map (fun x => some x.2) ++ List.replicate m none ∧ (∀ x ∈ l, env.fetch x.2 = x.1) ∧ (Lists W p l (0 < m) ∨
      ∃ k v, (l = [] ∨ l = [(k, v)]) ∧ (∃ M ∈ W, M k = some v) ∧ ¬ p <+: k ∧ ∀ k', p <+: k' → ∃ M ∈ W, M k' = none) := by
  obtain ⟨s, W', h1, h2⟩ := h.calm
  obtain ⟨l, m, h3, h4, h5⟩ := C37_first_calls_partial h1 hl
  refine ⟨l, m, h3, h4, h5.imp (fun h => h.more h2) ?_⟩
  rintro ⟨k, v, g1, ⟨M, g2, g3⟩, g4, g5⟩
  refine ⟨k, v, g1, ⟨M, h2 M g2, g3⟩, g4, fun k' hk' => ?_⟩
  obtain ⟨M', g6, g7⟩ := g5 k' hk'
  exact ⟨M', h2 M' g6, g7⟩

/-- C63 for iterators: of the first 257 calls of `Next`, at most one returns a key that is stored all the time, and exactly one if `Next` has returned false. -/
theorem C63_exactly_once {f : FSys} {σ : Spec} {it : Iter} {out : List (Option Word)} {W : List Map} (h : FIterates env FTwoUpdates p f σ it out W)
    (hl : out.length ≤ 257) {k : Key} (hp : p <+: k) (hk : ∀ M ∈ W, M k ≠ none) :
    returned env.fetch k out ≤ 1 ∧ (none ∈ out → returned env.fetch k out = 1) := by
  obtain ⟨s, W', h1, h2⟩ := h.calm
  exact C37_exactly_once_partial h1 hl hp fun M hM => hk M (h2 M hM)
end

/-! ## Readers while two keys are inserted -/

/-- As `walkTrace`, access by access. -/
def fwalkTrace {α : Type} (l : List Key) (g : FSys → FAct → Bool) (k : Sys → Ev → Bool) :
    List (Option FAct) → FSys → Spec → Prog α → Option (FSys × Spec × Prog α)
  | [], f, σ, p => some (f, σ, p)
  | some act :: acts, f, σ, p =>
    if allowedB l f.sys act.act && g f act then
      match fexec (fun v => l.getD (v.toNat % l.length) []) f act with
      | some (.ok (f', ev)) => if k f'.sys ev then fwalkTrace l g k acts f' (σ.next ev) p else none
      | _ => none
    else none
  | none :: acts, f, σ, p =>
    match p with
    | .root q => fwalkTrace l g k acts f σ (q f.sys.st.root)
    | .blocks q => fwalkTrace l g k acts f σ (q f.sys.st.nblocks)
    | .load x q => fwalkTrace l g k acts f σ (q (f.sys.st.mem x))
    | .ret r => fwalkTrace l g k acts f σ (.ret r)

theorem FWalks.ofTrace {α : Type} {l h} {G : FSys → FAct → Prop} {g : FSys → FAct → Bool} {K : Sys → Ev → Prop} {k : Sys → Ev → Bool}
    (hg : ∀ f σ act, FRun (Env.ofList l h) G f σ → g f act = true → G f act) (hk : ∀ s ev, k s ev = true → K s ev) :
    ∀ {acts : List (Option FAct)} {f : FSys} {σ : Spec} {p : Prog α} {f' : FSys} {σ' : Spec} {p' : Prog α}, FRun (Env.ofList l h) G f σ →
      fwalkTrace l g k acts f σ p = some (f', σ', p') → FWalks (Env.ofList l h) G K f σ p f' σ' p'
  | [], f, σ, p, f', σ', p', _, ht => by
    simp only [fwalkTrace, Option.some.injEq, Prod.mk.injEq] at ht
    obtain ⟨rfl, rfl, rfl⟩ := ht
    exact .refl
  | some act :: acts, f, σ, p, f', σ', p', hr, ht => by
    simp only [fwalkTrace] at ht
    split at ht
    · rename_i hb
      simp only [Bool.and_eq_true] at hb
      split at ht
      · rename_i f1 ev he
        split at ht
        · rename_i hk1
          have h1 := allowedB_sound (h := h) hb.1
          have h2 := hg _ _ _ hr hb.2
          exact (FWalks.other .refl h1 h2 he (hk _ _ hk1)).trans (FWalks.ofTrace hg hk (.step hr h1 h2 he) ht)
        · cases ht
      · cases ht
    · cases ht
  | none :: acts, f, σ, .root q, f', σ', p', hr, ht => (FWalks.root .refl).trans (FWalks.ofTrace hg hk (acts := acts) hr ht)
  | none :: acts, f, σ, .blocks q, f', σ', p', hr, ht => (FWalks.blocks .refl).trans (FWalks.ofTrace hg hk (acts := acts) hr ht)
  | none :: acts, f, σ, .load x q, f', σ', p', hr, ht => (FWalks.load .refl).trans (FWalks.ofTrace hg hk (acts := acts) hr ht)
  | none :: acts, f, σ, .ret _, f', σ', p', hr, ht => FWalks.ofTrace hg hk (acts := acts) hr ht

def fclashActs1 : List FAct :=
  [.step 0, .build 1 5, .commit 1] ++ List.replicate 5 (.step 0) ++ [.unlock 1, .unlock 1, .tail 1] ++ List.replicate 23 (.step 0)

def fclashActs2 : List FAct := [.build 0 6, .commit 0, .unlock 0, .unlock 0, .tail 0]

/-- Inserts of "ac" and "aac" are under way, as in `fclash`; allocator 2 begins, its reader takes `i` loads, both inserts go on until "ac" is stored, the
reader goes on for `j` loads, both inserts end, and the reader goes on for another `m` loads. -/
def fclashWalkB {α : Type} (p : Prog α) (i j m : Nat) (check : FSys → Spec → Prog α → Bool) : Bool :=
  match ftrace raceKeys (updatesB 1) (FSys.new 3) .init (fclash ++ [.begin 2 .walk]) with
  | some (f0, σ0) =>
    allowedB raceKeys f0.sys (.arm 2) && updatesB 1 f0 (.arm 2) &&
      match fexec (fun v => raceKeys.getD (v.toNat % raceKeys.length) []) f0 (.arm 2) with
      | some (.ok (f, .begun 2 .walk)) =>
        match fwalkTrace raceKeys (updatesB 1) (duringB 2) (List.replicate i none ++ fclashActs1.map some ++ List.replicate j none ++
            fclashActs2.map some ++ List.replicate m none) f (σ0.next (.begun 2 .walk)) p with
        | some (f', σ', p') => decide (0 < f.sys.st.nblocks) && check f' σ' p'
        | none => false
      | _ => false
  | none => false

theorem fclashWalk {α : Type} {p : Prog α} {i j m : Nat} {check : FSys → Spec → Prog α → Bool} (hc : fclashWalkB p i j m check = true) :
    ∃ f0 σ0 f f' σ' p', FRun raceEnv FTwoUpdates f0 σ0 ∧ FTwoUpdates f0 (.arm 2) ∧ fexec raceEnv.fetch f0 (.arm 2) = some (.ok (f, .begun 2 .walk)) ∧
      0 < f.sys.st.nblocks ∧ FWalks raceEnv FTwoUpdates (During 2) f (σ0.next (.begun 2 .walk)) p f' σ' p' ∧ check f' σ' p' = true := by
  unfold fclashWalkB at hc
  split at hc
  · rename_i f0 σ0 ht
    simp only [Bool.and_eq_true] at hc
    obtain ⟨⟨h1, h2⟩, hc⟩ := hc
    have hr := FRun.trace (h := raceKeys_good) twoUpdates_sound (.init 3) ht
    split at hc
    · rename_i f he
      split at hc
      · rename_i f' σ' p' hw
        simp only [Bool.and_eq_true, decide_eq_true_eq] at hc
        have h3 := allowedB_sound (h := raceKeys_good) h1
        have h4 := twoUpdates_sound _ _ _ hr h2
        exact ⟨f0, σ0, f, f', σ', p', hr, h4, he, hc.1, FWalks.ofTrace twoUpdates_sound duringB_sound (FRun.step (act := .arm 2) hr h3 h4 he) hw, hc.2⟩
      · cases hc
    · cases hc
  · cases hc

theorem fclashBegins {f0 f : FSys} {σ0 : Spec} (h1 : FRun raceEnv FTwoUpdates f0 σ0) (h2 : FTwoUpdates f0 (.arm 2))
    (h3 : fexec raceEnv.fetch f0 (.arm 2) = some (.ok (f, .begun 2 .walk))) : FBegins raceEnv FTwoUpdates 2 .walk f (σ0.next (.begun 2 .walk)) :=
  ⟨f0, σ0, h1, trivial, h2, h3, rfl⟩

/-- Both keys are stored when `Count("a")` ends, but it has counted one of them, besides the three keys that were there before. -/
example : ∃ f σ f' σ' c, FBegins raceEnv FTwoUpdates 2 .walk f σ ∧ FWalks raceEnv FTwoUpdates (During 2) f σ (countP 20 [97]) f' σ' (.ret (.ok c)) ∧
    c.leaves = 4 ∧ σ'.map [97, 99] = some 5 ∧ σ'.map [97, 97, 99] = some 6 := by
  obtain ⟨f0, σ0, f, f', σ', p', h1, h2, h3, _, h4, h5⟩ := fclashWalk (p := countP 20 [97]) (i := 2) (j := 3) (m := 30)
    (check := fun _ σ' p' => decide (σ'.map [97, 99] = some 5) && decide (σ'.map [97, 97, 99] = some 6) && resultB (fun c => c.leaves == 4) p') (by decide +kernel)
  simp only [Bool.and_eq_true, decide_eq_true_eq] at h5
  obtain ⟨c, rfl, h⟩ := resultB_sound h5.2
  exact ⟨f, _, f', σ', c, fclashBegins h1 h2 h3, h4, eq_of_beq h, h5.1.1, h5.1.2⟩

/-- It is about to load from the node "aa" that has been replaced. -/
example : ∃ f σ f' σ' k, FBegins raceEnv FTwoUpdates 2 .walk f σ ∧ FWalks raceEnv FTwoUpdates (During 2) f σ (countP 20 [97]) f' σ' (.load 4 k) ∧
    σ'.map [97, 97, 99] = some 6 := by
  obtain ⟨f0, σ0, f, f', σ', p', h1, h2, h3, _, h4, h5⟩ := fclashWalk (p := countP 20 [97]) (i := 3) (j := 3) (m := 0)
    (check := fun _ σ' p' => decide (σ'.map [97, 97, 99] = some 6) && loadsB 4 p') (by decide +kernel)
  simp only [Bool.and_eq_true, decide_eq_true_eq] at h5
  obtain ⟨k, rfl⟩ := loadsB_sound h5.2
  exact ⟨f, _, f', σ', k, fclashBegins h1 h2 h3, h4, h5.1⟩

/-- `MinKey("a")` and `MaxKey("a")`; the latter returns the new key, or the old one, depending on when it loads. -/
example : ∃ f σ f' σ', FBegins raceEnv FTwoUpdates 2 .walk f σ ∧ 0 < f.sys.st.nblocks ∧
    FWalks raceEnv FTwoUpdates (During 2) f σ (minKeyP 20 [97]) f' σ' (.ret (.ok (some 0))) := by
  obtain ⟨f0, σ0, f, f', σ', p', h1, h2, h3, h0, h4, h5⟩ := fclashWalk (p := minKeyP 20 [97]) (i := 2) (j := 2) (m := 10)
    (check := fun _ _ p' => resultB (fun c => c == some 0) p') (by decide +kernel)
  obtain ⟨c, rfl, h⟩ := resultB_sound h5
  obtain rfl := eq_of_beq h
  exact ⟨f, _, f', σ', fclashBegins h1 h2 h3, h0, h4⟩

example : ∃ f σ f' σ', FBegins raceEnv FTwoUpdates 2 .walk f σ ∧ 0 < f.sys.st.nblocks ∧
    FWalks raceEnv FTwoUpdates (During 2) f σ (maxKeyP 20 [97]) f' σ' (.ret (.ok (some 5))) := by
  obtain ⟨f0, σ0, f, f', σ', p', h1, h2, h3, h0, h4, h5⟩ := fclashWalk (p := maxKeyP 20 [97]) (i := 2) (j := 2) (m := 10)
    (check := fun _ _ p' => resultB (fun c => c == some 5) p') (by decide +kernel)
  obtain ⟨c, rfl, h⟩ := resultB_sound h5
  obtain rfl := eq_of_beq h
  exact ⟨f, _, f', σ', fclashBegins h1 h2 h3, h0, h4⟩

example : ∃ f σ f' σ', FBegins raceEnv FTwoUpdates 2 .walk f σ ∧ 0 < f.sys.st.nblocks ∧
    FWalks raceEnv FTwoUpdates (During 2) f σ (maxKeyP 20 [97]) f' σ' (.ret (.ok (some 2))) := by
  obtain ⟨f0, σ0, f, f', σ', p', h1, h2, h3, h0, h4, h5⟩ := fclashWalk (p := maxKeyP 20 [97]) (i := 3) (j := 2) (m := 10)
    (check := fun _ _ p' => resultB (fun c => c == some 2) p') (by decide +kernel)
  obtain ⟨c, rfl, h⟩ := resultB_sound h5
  obtain rfl := eq_of_beq h
  exact ⟨f, _, f', σ', fclashBegins h1 h2 h3, h0, h4⟩

/-- The first call of `Next` on an iterator over "a" is about to load from the replaced node. -/
example : ∃ f σ f' σ' k, FBegins raceEnv FTwoUpdates 2 .walk f σ ∧
    FWalks raceEnv FTwoUpdates (During 2) f σ ((Iter.new [97]).nextP 20) f' σ' (.load 4 k) ∧ σ'.map [97, 97, 99] = some 6 := by
  obtain ⟨f0, σ0, f, f', σ', p', h1, h2, h3, _, h4, h5⟩ := fclashWalk (p := (Iter.new [97]).nextP 20) (i := 3) (j := 3) (m := 0)
    (check := fun _ σ' p' => decide (σ'.map [97, 97, 99] = some 6) && loadsB 4 p') (by decide +kernel)
  simp only [Bool.and_eq_true, decide_eq_true_eq] at h5
  obtain ⟨k, rfl⟩ := loadsB_sound h5.2
  exact ⟨f, _, f', σ', k, fclashBegins h1 h2 h3, h4, h5.1⟩

/-- Five calls of `Next` return "aaa", "aab", "ab", "ac", and false. -/
example : ∃ f σ it W, FIterates raceEnv FTwoUpdates [97] f σ it [some 0, some 1, some 2, some 5, none] W ∧ σ.map [97, 97, 99] = some 6 := by
  obtain ⟨f0, σ0, f, f', σ', p', h1, h2, h3, _, h4, h5⟩ := fclashWalk (p := (Iter.new [97]).nextP 20) (i := 2) (j := 3) (m := 30)
    (check := fun _ σ' p' => decide (σ'.map [97, 97, 99] = some 6) &&
      resultB (fun c => c == (true, ⟨[97], 0, [0, 1, 2, 5], 1, [], true⟩)) p') (by decide +kernel)
  simp only [Bool.and_eq_true, decide_eq_true_eq] at h5
  obtain ⟨c, rfl, h⟩ := resultB_sound h5.2
  obtain rfl := eq_of_beq h
  have k1 := (FIterates.new (p := [97]) h1).scan rfl rfl trivial h2 h3 h4
  have k2 := k1.cached (.inr rfl) rfl
  have k3 := k2.cached (.inr rfl) rfl
  have k4 := k3.cached (.inr rfl) rfl
  have k5 := k4.cached (.inr rfl) rfl
  exact ⟨_, _, _, _, k5, h5.1⟩
end Radix
