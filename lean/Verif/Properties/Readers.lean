import Verif.Sys.Walks
import Verif.Sys.ReadIter
import Verif.Sys.ReadEnds
import Verif.Properties.Memory
import Verif.Properties.Wide
/-!
# Readers beside other operations

C24 for `Count` and `Next`, C25, C37, C42, C43.

`Walks env G K s σ p s' σ' p'` (Sys/Walks.lean): from the state `s` on, the reader `p` and other operations run, in any interleaving of their steps;
in state `s'`, the reader still has to do `p'`.  A reader is a sequence of loads (Model/Readers.lean), so `.load x k` is a reader that is about to load
slot `x`, and `.ret r` one that has finished with result `r`.
-/
set_option autoImplicit false
namespace Radix
open T

/-! ## The trees seen, as maps -/

section
variable {env : Env} {a : Nat} {s : Sys} {σ : Spec} {t : T} {seen : Nat → T → Prop} {S : T → Prop}

theorem Always.ofWindow (hI : Inv env s σ t seen) (ha : (s.proc a).active = true) (hS : ∀ x, S x → seen a x) {k : Key}
    (hk : ∀ M ∈ σ.window a, M k ≠ none) : Always S k := by
  intro t' ht'
  obtain ⟨M, h1, h2⟩ := hI.mem.win a t' ha (hS t' ht')
  exact h2.some_iff.1 (hk M h1)

theorem Once.inWindow (hI : Inv env s σ t seen) (ha : (s.proc a).active = true) (hS : ∀ x, S x → seen a x) {k : Key} {v : Word} (h : Once S k v) :
    ∃ M ∈ σ.window a, M k = some v := by
  obtain ⟨t', h1, h2⟩ := h
  obtain ⟨M, h3, h4⟩ := hI.mem.win a t' ha (hS t' h1)
  exact ⟨M, h3, (h4 k v).1 h2⟩

theorem Once.trunc (hI : Inv env s σ t seen) (ha : (s.proc a).active = true) (hS : ∀ x, S x → seen a x) {k : Key} {v : Word} (h : Once S k v) :
    trunc55 v = v := by
  obtain ⟨t', h1, h2⟩ := h
  exact ((hI.mem.ok a t' ha (hS t' h1)).wf.has h2).2.2.2
end

/-! ## Runs of a reader in concrete states -/

/-- Steps of other operations (`some act`) and loads of the reader (`none`; none after its end). -/
def walkTrace {α : Type} (l : List Key) (g : Sys → Act → Bool) (k : Sys → Ev → Bool) :
    List (Option Act) → Sys → Spec → Prog α → Option (Sys × Spec × Prog α)
  | [], s, σ, p => some (s, σ, p)
  | some act :: acts, s, σ, p =>
    if allowedB l s act && g s act then
      match exec (fun v => l.getD (v.toNat % l.length) []) s act with
      | some (.ok (s', ev)) => if k s' ev then walkTrace l g k acts s' (σ.next ev) p else none
      | _ => none
    else none
  | none :: acts, s, σ, p =>
    match p with
    | .root f => walkTrace l g k acts s σ (f s.st.root)
    | .blocks f => walkTrace l g k acts s σ (f s.st.nblocks)
    | .load x f => walkTrace l g k acts s σ (f (s.st.mem x))
    | .ret r => walkTrace l g k acts s σ (.ret r)

theorem Walks.ofTrace {α : Type} {l h} {G : Sys → Act → Prop} {g : Sys → Act → Bool} {K : Sys → Ev → Prop} {k : Sys → Ev → Bool}
    (hg : ∀ s σ act, Run (Env.ofList l h) G s σ → g s act = true → G s act) (hk : ∀ s ev, k s ev = true → K s ev) :
    ∀ {acts : List (Option Act)} {s : Sys} {σ : Spec} {p : Prog α} {s' : Sys} {σ' : Spec} {p' : Prog α}, Run (Env.ofList l h) G s σ →
      walkTrace l g k acts s σ p = some (s', σ', p') → Walks (Env.ofList l h) G K s σ p s' σ' p'
  | [], s, σ, p, s', σ', p', _, ht => by
    simp only [walkTrace, Option.some.injEq, Prod.mk.injEq] at ht
    obtain ⟨rfl, rfl, rfl⟩ := ht
    exact .refl
  | some act :: acts, s, σ, p, s', σ', p', hr, ht => by
    simp only [walkTrace] at ht
    split at ht
    · rename_i hb
      simp only [Bool.and_eq_true] at hb
      split at ht
      · rename_i s1 ev he
        split at ht
        · rename_i hk1
          have h1 := allowedB_sound (h := h) hb.1
          have h2 := hg _ _ _ hr hb.2
          exact (Walks.other .refl h1 h2 he (hk _ _ hk1)).trans (Walks.ofTrace hg hk (.step hr h1 h2 he) ht)
        · cases ht
      · cases ht
    · cases ht
  | none :: acts, s, σ, .root f, s', σ', p', hr, ht => (Walks.root .refl).trans (Walks.ofTrace hg hk (acts := acts) hr ht)
  | none :: acts, s, σ, .blocks f, s', σ', p', hr, ht => (Walks.blocks .refl).trans (Walks.ofTrace hg hk (acts := acts) hr ht)
  | none :: acts, s, σ, .load x f, s', σ', p', hr, ht => (Walks.load .refl).trans (Walks.ofTrace hg hk (acts := acts) hr ht)
  | none :: acts, s, σ, .ret _, s', σ', p', hr, ht => Walks.ofTrace hg hk (acts := acts) hr ht

/-- `During`, decided. -/
def duringB (a : Nat) (s : Sys) (ev : Ev) : Bool := (match ev with | .begun b _ => decide (b ≠ a) | _ => true) && (s.proc a).active

theorem duringB_sound {a : Nat} (s : Sys) (ev : Ev) (h : duringB a s ev = true) : During a s ev := by
  simp only [duringB, Bool.and_eq_true] at h
  refine ⟨?_, h.2⟩
  rintro c rfl
  simp at h

/-- An execution, `arm a`, and then a reader beside other operations. -/
def checkWalk {α : Type} (l : List Key) (g : Sys → Act → Bool) (n a : Nat) (acts : List Act) (p : Prog α) (acts' : List (Option Act))
    (check : Sys → Spec → Call → Sys → Spec → Prog α → Bool) : Bool :=
  match trace l g (Sys.new n) .init acts with
  | some (s0, σ0) =>
    allowedB l s0 (.arm a) && g s0 (.arm a) &&
      match exec (fun v => l.getD (v.toNat % l.length) []) s0 (.arm a) with
      | some (.ok (s, .begun _ c)) =>
        match walkTrace l g (duringB a) acts' s (σ0.next (.begun a c)) p with
        | some (s', σ', p') => check s (σ0.next (.begun a c)) c s' σ' p'
        | none => false
      | _ => false
  | none => false

theorem Begins.ofCheck {α : Type} {l h} {G : Sys → Act → Prop} {g : Sys → Act → Bool}
    (hg : ∀ s σ act, Run (Env.ofList l h) G s σ → g s act = true → G s act) {n a : Nat} {acts : List Act} {p : Prog α} {acts' : List (Option Act)}
    {check : Sys → Spec → Call → Sys → Spec → Prog α → Bool} (hc : checkWalk l g n a acts p acts' check = true) :
    ∃ c s σ s' σ' p', Begins (Env.ofList l h) G a c s σ ∧ Walks (Env.ofList l h) G (During a) s σ p s' σ' p' ∧ check s σ c s' σ' p' = true := by
  unfold checkWalk at hc
  split at hc
  · rename_i s0 σ0 ht
    simp only [Bool.and_eq_true] at hc
    obtain ⟨⟨h1, h2⟩, hc⟩ := hc
    split at hc
    · rename_i s b c he
      split at hc
      · rename_i s' σ' p' hw
        have hr := Run.trace hg (.init n) ht
        have hba : b = a := by
          simp only [exec] at he
          split at he
          · cases he; rfl
          · cases he
        subst hba
        have h3 := allowedB_sound (h := h) h1
        have h4 := hg _ _ _ hr h2
        exact ⟨c, s, _, s', σ', p', ⟨s0, σ0, hr, h3, h4, he, rfl⟩, Walks.ofTrace hg duringB_sound (.step hr h3 h4 he) hw, hc⟩
      · cases hc
    · cases hc
  · cases hc

/-! ## C24 for readers -/

/-- Between `s` and `s'`, slot `x` belonged to a reachable node at some moment. -/
def WasLive (env : Env) (a : Nat) (s : Sys) (σ : Spec) (s' : Sys) (σ' : Spec) (x : Nat) : Prop :=
  ∃ s1 σ1 w, Continues env Calm a s σ s1 σ1 ∧ (s1.proc a).active = true ∧ LiveNode s1.st w ∧ Occupies s1.st w x ∧ Continues env Calm a s1 σ1 s' σ'

section
variable {env : Env} {a : Nat} {α : Type} {s s' : Sys} {σ σ' : Spec}

theorem Walks.continues {G : Sys → Act → Prop} {p p' : Prog α} (h : Walks env G (During a) s σ p s' σ' p') : Continues env G a s σ s' σ' := by
  induction h with
  | refl => exact .refl
  | other _ h1 h2 h3 h4 ih => exact .step ih h1 h2 h3 h4.1
  | root _ ih => exact ih
  | blocks _ ih => exact ih
  | load _ ih => exact ih

theorem Continues.run {G : Sys → Act → Prop} (h : Continues env G a s σ s' σ') (hr : Run env G s σ) : Run env G s' σ' := by
  induction h with
  | refl => exact hr
  | step _ h1 h2 h3 _ ih => exact .step ih h1 h2 h3

theorem Walks.loads {L : Prop} {E : Panic → Prop} {Q : (T → Prop) → α → Prop} {c : Call} {p : Prog α} {x : Nat} {k : Word → Prog α}
    (hb : Begins env Calm a c s σ) (hnb : 0 < s.st.nblocks) (hp : ∀ S, Safe env a L E Q p S)
    (hw : Walks env Calm (During a) s σ p s' σ' (.load x k)) :
    (x = 0 ∨ WasLive env a s σ s' σ' x) ∨ (L ∧ ∃ y, x = y + 1 ∧ (y = 0 ∨ WasLive env a s σ s' σ' y)) := by
  obtain ⟨hr, t, seen, hI, hs, ha⟩ := hb.inv
  obtain ⟨t', seen', S, h1, h2, h3, h4, h5⟩ := hw.safe hI hs ha hnb hp
  have hg : ∀ y, Guarded (seen' a) y → y = 0 ∨ WasLive env a s σ s' σ' y := by
    rintro y (rfl | ⟨t1, g1, g2⟩)
    · exact .inl rfl
    · right
      obtain ⟨s1, σ1, p1, i1, i2, i3⟩ := h5 t1 g1
      obtain ⟨w, j1, j2⟩ := cover_live i3 g2
      exact ⟨s1, σ1, w, i1.continues, i1.active ha, j1, j2, i2.continues⟩
  rcases (h4 s' (seen' a) ⟨⟨σ', t', seen', h1, fun _ => .rfl⟩, hw.active ha, h2⟩ h3).1 with g | ⟨g1, y, g2, g3⟩
  · exact .inl (hg x g)
  · exact .inr ⟨g1, y, g2, hg y g3⟩

/-- Such memory is not handed out. -/
theorem WasLive.not_reused {x : Nat} (h : WasLive env a s σ s' σ' x) (hr : Run env Calm s σ) (ha' : (s'.proc a).active = true) {b : Nat} {sizes : List Nat}
    {r : List (Nat × Nat)} {st' : St} (hb : b < s'.st.nalloc) (hsz : ∀ z ∈ sizes, 2 ≤ z ∧ z + 1 < blockSlots)
    (hn : newNodes s'.st b sizes = .ok (r, st')) {n z : Nat} (hz : (n, z) ∈ r) : ¬ (n ≤ x ∧ x < n + z) := by
  obtain ⟨s1, σ1, w, h1, h2, h3, h4, h5⟩ := h
  exact C24_no_reuse_under_a_reader_partial (h1.run hr) h2 h3 h4 h5 ha' hb hsz hn hz

theorem slot_zero_not_reused (hr : Run env Calm s σ) {b : Nat} {sizes : List Nat} {r : List (Nat × Nat)} {st' : St} (hb : b < s.st.nalloc)
    (hsz : ∀ z ∈ sizes, 2 ≤ z ∧ z + 1 < blockSlots) (hn : newNodes s.st b sizes = .ok (r, st')) {n z : Nat} (hz : (n, z) ∈ r) :
    ¬ (n ≤ 0 ∧ 0 < n + z) := by
  obtain ⟨t, seen, hI⟩ := hr.inv
  have := (newNodes_eff (N := fun _ => 0) sizes hb hsz hI.mem.core.ok rfl hn).2 _ hz
  simp only at this
  omega

/-- C24 for `Count`, where the races listed at `Calm` do not show: the slot that it is about to load (except slot 0, which no node occupies) belonged to a
reachable node at some moment after the `Count` has reserved its epoch, and is not handed out. -/
theorem C24_count_partial {fuel : Nat} {sp : Key} {x : Nat} {k : Word → Prog Counter} (hb : Begins env Calm a .walk s σ)
    (hw : Walks env Calm (During a) s σ (countP fuel sp) s' σ' (.load x k)) :
    (x = 0 ∨ WasLive env a s σ s' σ' x) ∧
    ∀ b sizes r st', b < s'.st.nalloc → (∀ z ∈ sizes, 2 ≤ z ∧ z + 1 < blockSlots) → newNodes s'.st b sizes = .ok (r, st') →
      ∀ n z, (n, z) ∈ r → ¬ (n ≤ x ∧ x < n + z) := by
  have h := hw.loads (L := False) hb hb.blocks fun S => safe_count fuel sp S
  have h : x = 0 ∨ WasLive env a s σ s' σ' x := h.resolve_right fun h => h.1
  refine ⟨h, fun b sizes r st' h1 h2 h3 n z hz => ?_⟩
  rcases h with rfl | h
  · exact slot_zero_not_reused (hw.run hb.inv.1) h1 h2 h3 hz
  · exact h.not_reused hb.inv.1 (hw.active hb.inv.2.choose_spec.choose_spec.2.2) h1 h2 h3 hz

/-- C24 for a call of `Next` that scans the tree: the same, except that it also loads from the slot right after such a slot
(iterator.go:279, `storeResumePosition`, if every position on the stack is at the end of its node). -/
theorem C24_next_partial {fuel : Nat} {it : Iter} {x : Nat} {k : Word → Prog (Bool × Iter)} (hb : Begins env Calm a .walk s σ) (hd : it.done = false)
    (hp : it.prefetched[it.pp]? = none) (hw : Walks env Calm (During a) s σ (it.nextP fuel) s' σ' (.load x k)) :
    ∃ y, (x = y ∨ x = y + 1) ∧ (y = 0 ∨ WasLive env a s σ s' σ' y) ∧
    ∀ b sizes r st', b < s'.st.nalloc → (∀ z ∈ sizes, 2 ≤ z ∧ z + 1 < blockSlots) → newNodes s'.st b sizes = .ok (r, st') →
      ∀ n z, (n, z) ∈ r → ¬ (n ≤ y ∧ y < n + z) := by
  have h := hw.loads hb hb.blocks fun S => safe_next (E := fun _ => True) trivial trivial fuel it hd hp S
  have h : ∃ y, (x = y ∨ x = y + 1) ∧ (y = 0 ∨ WasLive env a s σ s' σ' y) := by
    rcases h with h | ⟨_, y, rfl, h⟩
    · exact ⟨x, .inl rfl, h⟩
    · exact ⟨y, .inr rfl, h⟩
  obtain ⟨y, hy, h⟩ := h
  refine ⟨y, hy, h, fun b sizes r st' h1 h2 h3 n z hz => ?_⟩
  rcases h with rfl | h
  · exact slot_zero_not_reused (hw.run hb.inv.1) h1 h2 h3 hz
  · exact h.not_reused hb.inv.1 (hw.active hb.inv.2.choose_spec.choose_spec.2.2) h1 h2 h3 hz

/-! ## C25: `MinKey` and `MaxKey` -/

/-- C25, where the races listed at `Calm` do not show, and for calls of `MinKey` and `MaxKey` during which some operation is running that has begun
before: the slot that the call is about to load belonged to a reachable node at some moment since that operation has begun, and is not handed out. -/
theorem C25_guarded_partial {c : Call} {fuel : Nat} {sp : Key} {p : Prog (Option Word)} (hp : p = minKeyP fuel sp ∨ p = maxKeyP fuel sp) {x : Nat}
    {k : Word → Prog (Option Word)} (hb : Begins env Calm a c s σ) (hnb : 0 < s.st.nblocks) (hw : Walks env Calm (During a) s σ p s' σ' (.load x k)) :
    (x = 0 ∨ WasLive env a s σ s' σ' x) ∧
    ∀ b sizes r st', b < s'.st.nalloc → (∀ z ∈ sizes, 2 ≤ z ∧ z + 1 < blockSlots) → newNodes s'.st b sizes = .ok (r, st') →
      ∀ n z, (n, z) ∈ r → ¬ (n ≤ x ∧ x < n + z) := by
  have h : x = 0 ∨ WasLive env a s σ s' σ' x := by
    rcases hp with rfl | rfl
    · exact (hw.loads (L := False) hb hnb fun S => safe_minKey (E := fun _ => True) trivial fuel sp S).resolve_right fun h => h.1
    · exact (hw.loads (L := False) hb hnb fun S => safe_maxKey (E := fun _ => True) trivial fuel sp S).resolve_right fun h => h.1
  refine ⟨h, fun b sizes r st' h1 h2 h3 n z hz => ?_⟩
  rcases h with rfl | h
  · exact slot_zero_not_reused (hw.run hb.inv.1) h1 h2 h3 hz
  · exact h.not_reused hb.inv.1 (hw.active hb.inv.2.choose_spec.choose_spec.2.2) h1 h2 h3 hz
end

/-! ## Readers while a key is deleted -/

/-- The four keys are stored; allocator 1 begins, its reader takes `i` loads, allocator 0 deletes `key`, and the reader goes on for `j` loads. -/
def demoWalkB {α : Type} (p : Prog α) (key : Key) (i j : Nat) (check : Sys → Spec → Prog α → Bool) : Bool :=
  checkWalk demoKeys calmB 2 1 (demoActs.take 33 ++ [.begin 1 .walk]) p
    (List.replicate i none ++ (delActs 0 key 11).map some ++ List.replicate j none)
    fun s _ c s' σ' p' => decide (0 < s.st.nblocks) && (match c with | .walk => true | _ => false) && check s' σ' p'

theorem demoWalk {α : Type} {p : Prog α} {key : Key} {i j : Nat} {check : Sys → Spec → Prog α → Bool} (h : demoWalkB p key i j check = true) :
    ∃ s σ s' σ' p', Begins demoEnv Calm 1 .walk s σ ∧ 0 < s.st.nblocks ∧ Walks demoEnv Calm (During 1) s σ p s' σ' p' ∧ check s' σ' p' = true := by
  obtain ⟨c, s, σ, s', σ', p', h1, h2, h3⟩ := Begins.ofCheck (h := demoKeys_good) calm_sound h
  simp only [Bool.and_eq_true, decide_eq_true_eq] at h3
  obtain ⟨⟨h3, h4⟩, h5⟩ := h3
  cases c with
  | walk => exact ⟨s, σ, s', σ', p', h1, h3, h2, h5⟩
  | _ => cases h4

def loadsB {α : Type} (x : Nat) : Prog α → Bool
  | .load y _ => y == x
  | _ => false

theorem loadsB_sound {α : Type} {x : Nat} {p : Prog α} (h : loadsB x p = true) : ∃ k, p = .load x k := by
  cases p with
  | load y k => exact ⟨k, by rw [eq_of_beq (show (y == x) = true from h)]⟩
  | _ => cases h

/-- `Count("b")` is about to load from the node of "bar" and "bob", which is no longer in the tree: "bob" has been deleted. -/
example : ∃ s σ s' σ' k, Begins demoEnv Calm 1 .walk s σ ∧ Walks demoEnv Calm (During 1) s σ (countP 20 [98]) s' σ' (.load 262150 k) ∧
    σ'.map [98, 111, 98] = none := by
  obtain ⟨s, σ, s', σ', p', h1, _, h2, h3⟩ := demoWalk (p := countP 20 [98]) (key := [98, 111, 98]) (i := 6) (j := 0)
    (check := fun _ σ' p' => decide (σ'.map [98, 111, 98] = none) && loadsB 262150 p') (by decide +kernel)
  simp only [Bool.and_eq_true, decide_eq_true_eq] at h3
  obtain ⟨k, rfl⟩ := loadsB_sound h3.2
  exact ⟨s, σ, s', σ', k, h1, h2, h3.1⟩

/-- The same for the first call of `Next` on an iterator over all keys. -/
example : ∃ s σ s' σ' k, Begins demoEnv Calm 1 .walk s σ ∧ Walks demoEnv Calm (During 1) s σ ((Iter.new []).nextP 20) s' σ' (.load 262150 k) ∧
    σ'.map [98, 111, 98] = none := by
  obtain ⟨s, σ, s', σ', p', h1, _, h2, h3⟩ := demoWalk (p := (Iter.new []).nextP 20) (key := [98, 111, 98]) (i := 10) (j := 0)
    (check := fun _ σ' p' => decide (σ'.map [98, 111, 98] = none) && loadsB 262150 p') (by decide +kernel)
  simp only [Bool.and_eq_true, decide_eq_true_eq] at h3
  obtain ⟨k, rfl⟩ := loadsB_sound h3.2
  exact ⟨s, σ, s', σ', k, h1, h2, h3.1⟩

/-- The same for `MinKey("b")` after a deletion of "bar", while an operation of allocator 1 is running. -/
example : ∃ s σ s' σ' k, Begins demoEnv Calm 1 .walk s σ ∧ 0 < s.st.nblocks ∧
    Walks demoEnv Calm (During 1) s σ (minKeyP 20 [98]) s' σ' (.load 262149 k) ∧ σ'.map [98, 97, 114] = none := by
  obtain ⟨s, σ, s', σ', p', h1, h0, h2, h3⟩ := demoWalk (p := minKeyP 20 [98]) (key := [98, 97, 114]) (i := 5) (j := 0)
    (check := fun _ σ' p' => decide (σ'.map [98, 97, 114] = none) && loadsB 262149 p') (by decide +kernel)
  simp only [Bool.and_eq_true, decide_eq_true_eq] at h3
  obtain ⟨k, rfl⟩ := loadsB_sound h3.2
  exact ⟨s, σ, s', σ', k, h1, h0, h2, h3.1⟩

end Radix
