import Verif.Sys.Volume
import Verif.Properties.Emptied
/-!
# C46: memory is lost when nodes are merged

A delete that leaves a node with a single child, which is a node again, replaces both by one new node (`replaceNodeWithNode`, delete.go:285-297).  It
recycles the child (line 295) but not the node itself, whose memory is never used again.
-/
set_option autoImplicit false
namespace Radix
open T

/-! ## Specification -/

/-- At most `m` keys are stored. -/
def AtMost (m : Nat) (M : Map) : Prop := ∀ ks : List Key, ks.Nodup → (∀ k ∈ ks, M k ≠ none) → ks.length ≤ m

/-- C46: operations on short keys, called one after the other on a new tree that never holds more than three keys, do not run out of memory. -/
def C46_statement : Prop :=
  ∀ (env : Env) (n : Nat) (ops : List MapOp), (∀ key, env.keys key → key.length ≤ 9) → ValidOps env n (fun _ => none) ops →
    (∀ done rest, ops = done ++ rest → AtMost 3 (done.foldl MapOp.apply (fun _ => none))) →
    ∃ s, Performs env.fetch (Sys.new n) ops s

/-- After some of the operations, `Finalize` of the next one panics because there is no memory. -/
def RunsOut (fetch : Word → Key) (s : Sys) (ops : List MapOp) : Prop :=
  ∃ done op rest s' k s1, ops = done ++ op :: rest ∧ Performs fetch s done s' ∧ execs fetch s' (op.prepare k) = some s1 ∧
    exec fetch s1 op.publish = some (.error .noBlocks)

theorem RunsOut.append {fetch : Word → Key} {s : Sys} {ops : List MapOp} (h : RunsOut fetch s ops) (ops' : List MapOp) :
    RunsOut fetch s (ops ++ ops') := by
  obtain ⟨done, op, rest, s', k, s1, h1, h2⟩ := h
  exact ⟨done, op, rest ++ ops', s', k, s1, by rw [h1]; simp, h2⟩

theorem RunsOut.after {fetch : Word → Key} {s s1 : Sys} {ops ops' : List MapOp} (h : Performs fetch s ops s1) (h' : RunsOut fetch s1 ops') :
    RunsOut fetch s (ops ++ ops') := by
  obtain ⟨done, op, rest, s', k, s2, h1, h2, h3⟩ := h'
  exact ⟨ops ++ done, op, rest, s', k, s2, by rw [h1]; simp, h.append h2, h3⟩

/-- The number of steps after which an operation is prepared is determined. -/
theorem prepare_once {fetch : Word → Key} {s sa sb : Sys} {op : MapOp} {k k' : Nat} {ra rb : Res (Sys × Ev)}
    (h1 : execs fetch s (op.prepare k) = some sa) (h2 : exec fetch sa op.publish = some ra)
    (h3 : execs fetch s (op.prepare k') = some sb) (h4 : exec fetch sb op.publish = some rb) : k = k' := by
  have hop : ∃ a c v, (∀ k, op.prepare k = [.begin a c, .arm a] ++ List.replicate k (.run a)) ∧ op.publish = .publish a v := by
    cases op with
    | put a key v => exact ⟨a, .update key, v, fun _ => rfl, rfl⟩
    | del a key => exact ⟨a, .delete key, 0, fun _ => rfl, rfl⟩
  obtain ⟨a, c, v, hpre, hpub⟩ := hop
  have key : ∀ {k k' : Nat} {sa sb : Sys} {ra : Res (Sys × Ev)}, k < k' → execs fetch s (op.prepare k) = some sa →
      exec fetch sa op.publish = some ra → execs fetch s (op.prepare k') = some sb → False := by
    intro k k' sa sb ra hlt e1 e2 e3
    obtain ⟨d, rfl⟩ : ∃ d, k' = k + (d + 1) := ⟨k' - k - 1, by omega⟩
    have e4 : op.prepare (k + (d + 1)) = op.prepare k ++ (.run a :: List.replicate d (.run a)) := by
      rw [hpre, hpre, ← List.replicate_append_replicate, List.replicate_succ]
      simp
    rw [e4, execs_append, e1] at e3
    rw [hpub] at e2
    simp only [Option.bind_some, execs] at e3
    simp only [exec] at e2 e3
    cases hp : sa.proc a with
    | upd ph =>
      rw [hp] at e2 e3
      cases ph <;> first | (cases e2; done) | cases e3
    | del ph =>
      rw [hp] at e2 e3
      cases ph <;> first | (cases e2; done) | cases e3
    | _ => rw [hp] at e2; cases e2
  rcases Nat.lt_trichotomy k k' with h | h | h
  · exact (key h h1 h2 h3).elim
  · exact h
  · exact (key h h3 h4 h1).elim

/-- Operations that run out of memory do not run to their end. -/
theorem RunsOut.not_performs {fetch : Word → Key} {s : Sys} {ops : List MapOp} (h : RunsOut fetch s ops) {s' : Sys} : ¬ Performs fetch s ops s' := by
  obtain ⟨done, op, rest, s1, k, s2, rfl, h1, h2, h3⟩ := h
  intro h
  induction h1 with
  | nil s =>
    cases h with
    | cons k' x _ =>
      rw [execs_append] at x
      cases hx : execs fetch s (op.prepare k') with
      | none => rw [hx] at x; cases x
      | some sb =>
        rw [hx] at x
        simp only [Option.bind_some, execs] at x
        cases hy : exec fetch sb op.publish with
        | none => rw [hy] at x; cases x
        | some rb =>
          obtain rfl := prepare_once h2 h3 hx hy
          rw [h2] at hx
          cases hx
          rw [h3] at hy
          cases hy
          rw [h3] at x
          cases x
  | @cons s sa sb op' ops k' x _ ih =>
    cases h with
    | cons k2 y h =>
      have : sa = _ := C41_result_is_determined (fetch := fetch) (s := s) (ops := [op']) (.cons k' x (.nil _)) (.cons k2 y (.nil _))
      subst this
      exact ih h2 h

/-! ## The keys "aa", "ab" and "b" -/

def leakKeys : List Key := [[97, 97], [97, 98], [98]]

theorem leakKeys_good : goodKeys leakKeys = true := by decide +kernel

def leakEnv : Env := Env.ofList leakKeys leakKeys_good

theorem leakEnv_keys {k : Key} (h : leakEnv.keys k) : k = [97, 97] ∨ k = [97, 98] ∨ k = [98] := by
  simpa [leakEnv, Env.ofList, leakKeys] using h

theorem leakEnv_ab : leakEnv.AB := by
  intro k hk
  rcases leakEnv_keys hk with rfl | rfl | rfl <;> simp

theorem leakEnv_len {k : Key} (h : leakEnv.keys k) : k.length ≤ 2 := by
  rcases leakEnv_keys h with rfl | rfl | rfl <;> simp

theorem leakEnv_short : leakEnv.Short := fun _ hk => Nat.le_trans (leakEnv_len hk) (by omega)

/-- "aa" and "ab" are stored, and no others except possibly "b". -/
structure LeakMap (M : Map) (b : Bool) : Prop where
  aa : M [97, 97] ≠ none
  ab : M [97, 98] ≠ none
  b : b = false → M [98] = none

theorem LeakMap.not_leaf {env : Env} {s : Sys} {σ : Spec} {t : T} {seen : Nat → T → Prop} (hI : Inv env s σ t seen) {b : Bool} (h : LeakMap σ.map b) :
    t ≠ .empty ∧ ∀ k v, t ≠ .leaf k v := by
  obtain ⟨v1, e1⟩ := hI.mem.content.some_iff.1 h.aa
  obtain ⟨v2, e2⟩ := hI.mem.content.some_iff.1 h.ab
  refine ⟨?_, ?_⟩
  · rintro rfl; exact e1
  · rintro k v rfl
    have := e1.1.symm.trans e2.1
    simp at this

/-- Below a node with prefix `pfx` keys have at least one more byte. -/
theorem leak_pfx {t : T} (hwf : t.WF leakEnv.P []) {q : Key} {n : Nat} {pfx : List UInt8} {big : Bool} {ch : UInt8 → T}
    (h : At t q (.node n pfx big ch)) : q.length + pfx.length ≤ 1 := by
  obtain ⟨_, k, v, c, hP, hpre⟩ := (h.wf hwf).1
  have h1 := leakEnv_len hP.1
  have h2 := hpre.length_le
  simp at h2
  omega

/-- While only "aa" and "ab" are stored, the root has the prefix "a". -/
theorem leak_root {s : Sys} {σ : Spec} {t : T} {seen : Nat → T → Prop} (hI : Inv leakEnv s σ t seen) (hd : t.Dense) (h : LeakMap σ.map false)
    {n : Nat} {big : Bool} {ch : UInt8 → T} (ht : At t [] (.node n [] big ch)) : False := by
  have hwf := hI.mem.core.wf
  cases big with
  | true =>
    obtain ⟨p, hp⟩ := HasBig.ofAt ht
    exact hd.noBig leakEnv_ab hwf p hp
  | false =>
    generalize hq : ([] : Key) = q at ht
    generalize hx : T.node n [] false ch = x at ht
    cases ht with
    | down h => simp at hq
    | here =>
      subst hx
      have hf := hd.full hwf
      have h1 := (hwf.2.1 rfl).1
      have h2 : cntOf (present ch) ≤ cntOf (fun c => c = 97) := by
        refine cntOf_mono fun c hc => ?_
        have he : (ch c).isEmpty = false := by simpa [present] using hc
        obtain ⟨k, v, hk⟩ := (hf.2 c).has he
        obtain ⟨hp, hP⟩ := (hwf.2.2 c).has hk
        have hs : σ.map k ≠ none := hI.mem.content.some_iff.2 ⟨v, c, hk⟩
        rcases leakEnv_keys hP.1 with rfl | rfl | rfl
        · simpa using hp
        · simpa using hp
        · exact absurd (h.b rfl) hs
      have h3 : cntOf (fun c => c = 97) = 1 := by decide +kernel
      omega

/-- Storing "b" takes memory: the node of the two other keys is copied, and a new root is made. -/
theorem leak_put {s s' : Sys} {σ σ' : Spec} (h : PutSteps leakEnv (SlimRun leakEnv) 0 [98] 2 s σ s' σ') (hn : s.st.nalloc = 1)
    (hm : LeakMap σ.map false) : vol 0 s.st + 8 ≤ vol 0 s'.st := by
  obtain ⟨s1, σ1, f, op, tl, st', ⟨_, t, seen, hI, hd⟩, hmap, hp, hkey, _, _, hpub, _, he, hal⟩ := h
  rw [← hmap] at hm
  have hwf := hI.mem.core.wf
  have hnl := hm.not_leaf hI
  have hrun : st'.runTail 0 tl = .ok s'.st := by
    simp only [exec, Sys.set, upd_same] at he
    injection he with he
    obtain ⟨st2, h1, h2⟩ := bind_ok he
    cases h2
    exact h1
  have hv1 : vol 0 s1.st = vol 0 s.st := vol_congr hal.1.1 (by rw [hal.2]) (by rw [hal.2])
  have hf1 : (s1.st.allocs 0).nextFree ≤ blockSize := hI.nextFree (by rw [hal.1.2.1]; omega)
  have hP := hI.proc 0
  rw [hp] at hP
  obtain ⟨_, _, _, ⟨h2, hf⟩ | ⟨h2, q, pfx, big, ch, hu, _⟩⟩ := hP
  · exfalso
    unfold UFact at hf
    cases hk : op.kind <;> rw [hk] at h2 hf <;> first | (cases h2; done) | skip
    · exact hnl.1 hf.1
    · obtain ⟨lk, lv, ht, _⟩ := hf
      exact hnl.2 _ _ ht
    · obtain ⟨lk, lv, ht, _⟩ := hf
      exact hnl.2 _ _ ht
  · have hin : q ++ pfx ++ [op.k] <+: op.key → False := by
      intro hpre
      rw [hkey] at hpre
      have := hpre.length_le
      simp only [List.length_append, List.length_cons, List.length_nil] at this
      obtain rfl : q = [] := List.eq_nil_of_length_eq_zero (by omega)
      obtain rfl : pfx = [] := List.eq_nil_of_length_eq_zero (by omega)
      exact leak_root hI hd hm hu.at'
    rcases hu.kind with ⟨hk, p1, kb, p2, ka, rest, e1, e2, _, e3, e4⟩ | ⟨⟨_, hpre⟩, _⟩
    · rw [hkey] at e2
      have := congrArg List.length e2
      simp only [List.length_append, List.length_cons, List.length_nil] at this
      obtain rfl : q = [] := List.eq_nil_of_length_eq_zero (by omega)
      obtain rfl : p1 = [] := List.eq_nil_of_length_eq_zero (by omega)
      have h3 := leak_pfx hwf hu.at'
      rw [e1] at h3
      simp only [List.length_append, List.length_cons, List.length_nil] at h3
      obtain rfl : p2 = [] := List.eq_nil_of_length_eq_zero (by omega)
      have hpfx : op.pfx = [kb] := by rw [hu.pre, e1]; rfl
      have hsl : op.prefixSlots = 1 := by rw [hu.slots, e1]; show prefixSlots 1 = 1; decide
      have hc : op.count ≤ 256 := by
        rw [hu.count]
        unfold cnt
        split
        · exact Nat.le_refl _
        · exact cntOf_le _
      simp only [List.length_nil] at e3 e4
      have hz : prefixSlots 0 = 0 := rfl
      obtain ⟨g1, g2⟩ := publishU_vol hk hc (by rw [hpfx, e4]; show prefixSlots 0 ≤ 64; decide) (by rw [e4]; simp [hz]) hf1 hpub
      rw [hpfx, e4] at g1
      simp only [List.drop_succ_cons, List.drop_zero, List.take_zero, List.length_nil, hz] at g1
      have g3 := runTail_vol g2 hrun
      rw [hsl] at g3
      omega
    · exact (hin hpre).elim

/-- Deleting "b" takes memory: the node of the two other keys is copied again. -/
theorem leak_del {s s' : Sys} {σ σ' : Spec} (h : DelSteps leakEnv (SlimRun leakEnv) 0 [98] s σ s' σ') (hn : s.st.nalloc = 1)
    (hm : LeakMap σ.map true) : vol 0 s.st + 8 ≤ vol 0 s'.st := by
  obtain ⟨s1, σ1, cur, tl, st', ⟨_, t, seen, hI, hd⟩, hmap, hp, hkey, hS, hall, hpub, _, he, hal⟩ := h
  rw [← hmap] at hm
  have hwf := hI.mem.core.wf
  have hnl := hm.not_leaf hI
  have hrun : st'.runTail 0 tl = .ok s'.st := by
    simp only [exec, Sys.set, upd_same] at he
    injection he with he
    obtain ⟨st2, h1, h2⟩ := bind_ok he
    cases h2
    exact h1
  have hv1 : vol 0 s1.st = vol 0 s.st := vol_congr hal.1.1 (by rw [hal.2]) (by rw [hal.2])
  have hf1 : (s1.st.allocs 0).nextFree ≤ blockSize := hI.nextFree (by rw [hal.1.2.1]; omega)
  have hval : leakEnv.fetch cur.op.value = [98] := by
    have : leakEnv.fetch cur.op.value = cur.key := by simpa [Env.Allowed, hp] using hall
    rw [this, hkey]
  have hcalm : Calm s1 (.publish 0 0) := SInv.calm (act := .publish 0 0) hI hS trivial
  -- the leaf found is the one of "b"
  have hleaf : ∀ {q : Key} {n : Nat} {pfx : List UInt8} {big : Bool} {ch : UInt8 → T} {k : UInt8} {lk : Key} {lv : Word},
      At t q (.node n pfx big ch) → ch k = .leaf lk lv → cur.op.value = trunc55 lv → lk = [98] ∧ q = [] ∧ pfx = [] ∧ k = 98 := by
    intro q n pfx big ch k lk lv hat hk hv
    have h1 := (hat.wf hwf).2.2 k
    rw [hk] at h1
    obtain ⟨h1, _, h2, h3⟩ := h1
    rw [hv, h3, h2] at hval
    subst hval
    have := h1.length_le
    simp only [List.nil_append, List.length_append, List.length_cons, List.length_nil] at this
    obtain rfl : q = [] := List.eq_nil_of_length_eq_zero (by omega)
    obtain rfl : pfx = [] := List.eq_nil_of_length_eq_zero (by omega)
    refine ⟨rfl, rfl, rfl, ?_⟩
    simpa using h1
  have hhere : ∀ {x : T}, At t [] x → t = x := by
    intro x hx
    generalize hq : ([] : Key) = q at hx
    cases hx with
    | here => rfl
    | down h => simp at hq
  have hbig : cur.op.kind ≠ .deleteLeaf256 := by
    intro hk
    rcases publishD_inv hI hp hall hcalm with e | ⟨b, tl', st'', e, _, g, _⟩
    · rw [hpub] at e; cases e
    · rw [hpub] at e; cases e
      obtain ⟨_, _, _, _, hat⟩ := (g rfl).2 hk
      obtain ⟨r, hb⟩ := HasBig.ofAt hat
      exact hd.noBig leakEnv_ab hwf r hb
  have hP := hI.proc 0
  rw [hp] at hP
  obtain ⟨_, ⟨h2, hf⟩ | ⟨_, q, pfx, ch, h3, _⟩ | ⟨hk, q, pfx, k, k2, lk, lv, pfx2, big2, kids, h3, _, h4, h5, _⟩ | ⟨h2, _⟩⟩ := hP
  · exfalso
    unfold DFact at hf
    rw [h2] at hf
    obtain ⟨lk, lv, ht, _⟩ := hf
    exact hnl.2 _ _ ht
  · exfalso
    rcases h3.kind with ⟨_, k, lk, lv, hk, hc, hv, _⟩ | ⟨_, k, k2, lk, lv, lk2, lv2, hch, hne, hv, _⟩
    · obtain ⟨_, rfl, rfl, _⟩ := hleaf h3.at' hk hv
      have h1 := h3.at'.wf hwf
      have h2 : cntOf (present ch) ≤ cntOf (fun c => c = 97 || c = 98) := by
        refine cntOf_mono fun c hc => ?_
        have he : (ch c).isEmpty = false := by simpa [present] using hc
        have hfull := hd.full hwf
        rw [hhere h3.at'] at hfull
        obtain ⟨k, v, hk⟩ := (hfull.2 c).has he
        obtain ⟨hp, hP⟩ := (h1.2.2 c).has hk
        have : c = 97 ∨ c = 98 := leakEnv_ab k hP.1 c (hp.subset (by simp))
        simpa using this
      have h4 : cntOf (fun c => c = 97 || c = 98) = 2 := by decide +kernel
      omega
    · subst hch
      obtain ⟨rfl, rfl, rfl, _⟩ := hleaf h3.at' (ch2_fst hne) hv
      have ht := hhere h3.at'
      obtain ⟨v1, e1⟩ := hI.mem.content.some_iff.1 hm.aa
      obtain ⟨v2, e2⟩ := hI.mem.content.some_iff.1 hm.ab
      rw [ht] at e1 e2
      have key : ∀ {x : Key} {v : Word}, x ≠ [98] → T.Has (.node cur.op.node [] false (ch2 k (.leaf [98] lv) k2 (.leaf lk2 lv2))) x v → lk2 = x := by
        intro x v hx hh
        rcases (ch2_exists (Q := fun _ t => t.Has x v) hne (fun _ h => h)).1 hh with h | h
        · exact absurd h.1.symm hx
        · exact h.1
      have := (key (by decide) e1).symm.trans (key (by decide) e2)
      simp at this
  · have hat := h3.at'
    obtain ⟨_, rfl, rfl, _⟩ := hleaf hat (ch2_fst h3.ne) h3.value
    have hat2 := hat.child k2
    rw [ch2_snd] at hat2
    have h6 := leak_pfx hwf hat2
    simp only [List.nil_append, List.length_cons, List.length_nil] at h6
    obtain rfl : pfx2 = [] := List.eq_nil_of_length_eq_zero (by omega)
    have hc : cur.op.count ≤ 256 := by
      rw [h3.count]
      unfold cnt
      split
      · exact Nat.le_refl _
      · exact cntOf_le _
    have hz : prefixSlots 1 = 1 := rfl
    have hz0 : prefixSlots 0 = 0 := rfl
    simp only [List.nil_append] at h5
    obtain ⟨g1, g2⟩ := publishD_vol hk hc (by rw [h5]; simp [hz]) hf1 hpub
    rw [h5] at g1
    simp only [List.length_cons, List.length_nil, hz, Nat.zero_add] at g1
    have g3 := runTail_vol g2 hrun
    rw [h4] at g3
    simp only [List.length_nil, hz0] at g3
    omega
  · exact absurd h2 hbig

/-! ## Storing and deleting "b" again and again -/

def leakRound : List MapOp := [.put 0 [98] 2, .del 0 [98]]

/-- `n` times. -/
def leakRounds : Nat → List MapOp
  | 0 => []
  | n + 1 => leakRound ++ leakRounds n

theorem leak_round {s : Sys} {σ : Spec} (h : SlimRun leakEnv s σ) (hidle : ∀ b, s.proc b = .idle) (hn : s.st.nalloc = 1) (hm : LeakMap σ.map false) :
    RunsOut leakEnv.fetch s leakRound ∨
    ∃ s' σ', Performs leakEnv.fetch s leakRound s' ∧ SlimRun leakEnv s' σ' ∧ (∀ b, s'.proc b = .idle) ∧ s'.st.nalloc = 1 ∧ LeakMap σ'.map false ∧
      vol 0 s.st + 16 ≤ vol 0 s'.st := by
  have hstep : ∀ {s σ act s' ev}, SlimRun leakEnv s σ → leakEnv.Allowed s act → Serial s act → exec leakEnv.fetch s act = some (.ok (s', ev)) →
      SlimRun leakEnv s' (σ.next ev) := fun h => h.step leakEnv_ab
  rcases put_alone (env := leakEnv) (G := Serial) (R := SlimRun leakEnv) hstep (fun _ _ h _ => h) (fun _ _ h => h.1.serial.1)
    h hidle (a := 0) (by omega) (key := [98]) (by simp [leakEnv, Env.ofList, leakKeys]) (value := 2) (by decide +kernel) with
    ⟨k, s1, σ1, x1, h1, hid1, hmap1, _, hn1, hp⟩ | ⟨k, s1, x1, e1, _⟩ | ⟨hx, _⟩
  · have hm1 : LeakMap σ1.map true := by
      refine ⟨?_, ?_, by simp⟩
      · rw [hmap1, upd_of_ne _ _ (by decide)]; exact hm.aa
      · rw [hmap1, upd_of_ne _ _ (by decide)]; exact hm.ab
    rw [putSteps_eq] at x1
    have hv1 := leak_put hp hn hm
    rcases del_alone (env := leakEnv) (G := Serial) (R := SlimRun leakEnv) hstep (fun _ _ h => h) (fun _ _ h => h.1.serial.1)
      h1 hid1 (a := 0) (by omega) (key := [98]) (by rw [hmap1, upd_same]; simp) with
      ⟨k2, s2, σ2, x2, h2, hid2, hmap2, _, hn2, hq⟩ | ⟨k2, s2, x2, e2, _⟩ | ⟨hx, _⟩
    · rw [delSteps_eq] at x2
      have hv2 := leak_del hq (by omega) hm1
      refine .inr ⟨s2, σ2, .cons k x1 (.cons k2 x2 (.nil _)), h2, hid2, by omega, ⟨?_, ?_, ?_⟩, by omega⟩
      · rw [hmap2, upd_of_ne _ _ (by decide)]; exact hm1.aa
      · rw [hmap2, upd_of_ne _ _ (by decide)]; exact hm1.ab
      · intro _; rw [hmap2, upd_same]
    · exact .inl ⟨[.put 0 [98] 2], .del 0 [98], [], s1, k2, s2, rfl, .cons k x1 (.nil _), x2, e2⟩
    · exact absurd leakEnv_short hx
  · exact .inl ⟨[], .put 0 [98] 2, [.del 0 [98]], s, k, s1, rfl, .nil _, x1, e1⟩
  · exact absurd leakEnv_short hx

theorem leak_rounds : ∀ (n : Nat) {s : Sys} {σ : Spec}, SlimRun leakEnv s σ → (∀ b, s.proc b = .idle) → s.st.nalloc = 1 → LeakMap σ.map false →
    RunsOut leakEnv.fetch s (leakRounds n) ∨
    ∃ s' σ', SlimRun leakEnv s' σ' ∧ s'.st.nalloc = 1 ∧ vol 0 s.st + 16 * n ≤ vol 0 s'.st
  | 0, s, σ, h, _, hn, _ => .inr ⟨s, σ, h, hn, by omega⟩
  | n + 1, s, σ, h, hidle, hn, hm => by
    rcases leak_round h hidle hn hm with h1 | ⟨s1, σ1, p1, h1, hid1, hn1, hm1, hv1⟩
    · exact .inl (h1.append _)
    · rcases leak_rounds n h1 hid1 hn1 hm1 with h2 | ⟨s2, σ2, h2, hn2, hv2⟩
      · exact .inl (RunsOut.after p1 h2)
      · refine .inr ⟨s2, σ2, h2, hn2, ?_⟩
        rw [Int.natCast_add, Int.mul_add]
        omega

/-- "aa" and "ab" are stored, then "b" is stored and deleted `n` times. -/
def leakOps (n : Nat) : List MapOp := [.put 0 [97, 97] 0, .put 0 [97, 98] 1] ++ leakRounds n

theorem leak_valid (M : Map) : ∀ n, ValidOps leakEnv 1 M (leakRounds n)
  | 0 => trivial
  | n + 1 => by
    refine ⟨⟨by decide, by simp [leakEnv, Env.ofList, leakKeys], by decide +kernel⟩, ⟨by decide, ?_⟩, leak_valid _ n⟩
    simp [MapOp.apply]

theorem leakOps_valid (n : Nat) : ValidOps leakEnv 1 (fun _ => none) (leakOps n) :=
  ⟨⟨by decide, by simp [leakEnv, Env.ofList, leakKeys], by decide +kernel⟩, ⟨by decide, by simp [leakEnv, Env.ofList, leakKeys], by decide +kernel⟩,
    leak_valid _ n⟩

/-- Only the keys of the operations are stored. -/
theorem foldl_keys {l : List Key} : ∀ {ops : List MapOp} {M : Map}, (∀ a k v, MapOp.put a k v ∈ ops → k ∈ l) → (∀ k, M k ≠ none → k ∈ l) →
    ∀ k, ops.foldl MapOp.apply M k ≠ none → k ∈ l
  | [], _, _, h => h
  | op :: ops, M, h1, h2 => by
    refine foldl_keys (ops := ops) (fun a k v hk => h1 a k v (List.mem_cons_of_mem _ hk)) fun k hk => ?_
    cases op with
    | put a k' v =>
      by_cases e : k = k'
      · subst e; exact h1 a k v (by simp)
      · exact h2 k (by simpa [MapOp.apply, upd_of_ne _ _ e] using hk)
    | del a k' =>
      by_cases e : k = k'
      · subst e; simp [MapOp.apply] at hk
      · exact h2 k (by simpa [MapOp.apply, upd_of_ne _ _ e] using hk)

theorem leakRounds_keys {a : Nat} {k : Key} {v : Word} : ∀ {n : Nat}, MapOp.put a k v ∈ leakRounds n → k = [98]
  | 0, h => by cases h
  | n + 1, h => by
    rcases List.mem_append.1 h with h | h
    · simp only [leakRound, List.mem_cons, List.not_mem_nil, or_false] at h
      rcases h with h | h
      · cases h; rfl
      · cases h
    · exact leakRounds_keys h

theorem leakOps_few {n : Nat} {done rest : List MapOp} (h : leakOps n = done ++ rest) : AtMost 3 (done.foldl MapOp.apply (fun _ => none)) := by
  intro ks hn hk
  have hsub : ks ⊆ leakKeys := by
    intro k hk'
    refine foldl_keys (l := leakKeys) (ops := done) (M := fun _ => none) (fun a k v hp => ?_) (fun k h => absurd rfl h) k (hk k hk')
    have hp : MapOp.put a k v ∈ leakOps n := by rw [h]; exact List.mem_append_left _ hp
    rcases List.mem_append.1 hp with hp | hp
    · simp only [List.mem_cons, List.not_mem_nil, or_false] at hp
      rcases hp with hp | hp <;> cases hp <;> simp [leakKeys]
    · rw [leakRounds_keys hp]; simp [leakKeys]
  exact hn.length_le_of_subset hsub

/-- "aa" and "ab" are stored. -/
theorem leak_start : ∃ s σ, Performs leakEnv.fetch (Sys.new 1) [.put 0 [97, 97] 0, .put 0 [97, 98] 1] s ∧ SlimRun leakEnv s σ ∧
    (∀ b, s.proc b = .idle) ∧ s.st.nalloc = 1 ∧ LeakMap σ.map false := by
  have hstep : ∀ {s σ act s' ev}, SlimRun leakEnv s σ → leakEnv.Allowed s act → Serial s act → exec leakEnv.fetch s act = some (.ok (s', ev)) →
      SlimRun leakEnv s' (σ.next ev) := fun h => h.step leakEnv_ab
  rcases ops_alone (env := leakEnv) (G := Serial) (R := SlimRun leakEnv) hstep (fun _ _ h _ => h) (fun _ _ h => h.1.serial.1)
    [.put 0 [97, 97] 0, .put 0 [97, 98] 1] (.inl fun _ _ h => h) ((Run.init 1).slim leakEnv_ab) (fun _ => rfl) (leakOps_valid 0) with
    ⟨s', σ', h1, h2, h3, h4, _, h6⟩ | ⟨done, op, rest, s', k, s1, h1, h2, h3, h4⟩
  · refine ⟨s', σ', h1, h2, h3, h6, ?_, ?_, fun _ => ?_⟩
    · rw [h4]; simp [MapOp.apply, upd]
    · rw [h4]; simp [MapOp.apply, upd]
    · rw [h4]; simp [MapOp.apply, upd, Spec.init]
  · exfalso
    rcases h4 with ⟨_, h5, h6⟩ | ⟨h4, _⟩
    · have h7 : (Sys.new 1).st.baNext = 0 := rfl
      have := congrArg List.length h1
      simp only [List.length_append, List.length_cons, List.length_nil] at this
      unfold maxBlockCount at h5
      omega
    · exact h4 leakEnv_short

/-! ## C46 -/

/-- Storing and deleting one key often enough, in a tree with two other keys, makes `Finalize` panic because there is no memory. -/
theorem C46_merging_runs_out : ∃ n, RunsOut leakEnv.fetch (Sys.new 1) (leakOps n) := by
  obtain ⟨s, σ, hp, h, hidle, hn, hm⟩ := leak_start
  refine ⟨((maxBlockCount + 1) * blockSize - vol 0 s.st + 1).toNat, ?_⟩
  rcases leak_rounds _ h hidle hn hm with h1 | ⟨s', σ', ⟨_, t, seen, hI, _⟩, hn', hv⟩
  · exact .after hp h1
  · exfalso
    have := hI.vol_le (a := 0) (by omega)
    omega

/-- C46 does not hold. -/
theorem C46_does_not_hold : ¬ C46_statement := by
  intro hC
  obtain ⟨n, h⟩ := C46_merging_runs_out
  obtain ⟨s, hs⟩ := hC leakEnv 1 (leakOps n) leakEnv_short (leakOps_valid n) fun _ _ h => leakOps_few h
  exact h.not_performs hs

/-! ## Updates of stored keys -/

/-- The same memory is taken. -/
def SameTaken (st st' : St) : Prop :=
  st'.baNext = st.baNext ∧ ∀ a, (st'.allocs a).nextFree = (st.allocs a).nextFree ∧ (st'.allocs a).recycler = (st.allocs a).recycler

theorem SameTaken.trans {a b c : St} (h : SameTaken a b) (h' : SameTaken b c) : SameTaken a c :=
  ⟨h'.1.trans h.1, fun x => ⟨(h'.2 x).1.trans (h.2 x).1, (h'.2 x).2.trans (h.2 x).2⟩⟩

theorem KeepAl.taken {st st' : St} (h : KeepAl st st') : SameTaken st st' := ⟨h.1.1, fun a => by rw [h.2]; exact ⟨rfl, rfl⟩⟩

/-- Replacing the value of a leaf takes no memory. -/
theorem publishU_match {st : St} {a : Nat} {op : UpdOp} {fetched : Key} {value : Word} (hk : op.kind.found = true) :
    ∃ b u st', publishU st a op fetched true value = .ok (b, { unl := u }, st') ∧ KeepAl st st' := by
  have hc : ∀ p o n, KeepAl st (st.cas p o n).2 := by
    intro p o n
    unfold St.cas
    split
    · cases p <;> exact ⟨⟨rfl, rfl, rfl⟩, rfl⟩
    · exact .refl _
  unfold publishU
  cases h : op.kind <;> rw [h] at hk <;> first | (cases hk; done) | exact ⟨_, _, _, rfl, hc _ _ _⟩

theorem update_mem {env : Env} {s : Sys} {σ : Spec} (h : Run env Serial s σ) (hidle : ∀ b, s.proc b = .idle) {a : Nat} (ha : a < s.st.nalloc) {key : Key}
    (hk : env.keys key) {value : Word} (hv : env.fetch (trunc55 value) = key) (hm : σ.map key ≠ none) :
    ∃ n s' σ', execs env.fetch s (putSteps a key value n) = some s' ∧ Run env Serial s' σ' ∧ (∀ b, s'.proc b = .idle) ∧
      σ'.map = upd σ.map key (some (trunc55 value)) ∧ s'.st.nalloc = s.st.nalloc ∧ SameTaken s.st s'.st := by
  have hG : ∀ s act, Serial s act → ¬ s.DelPub act → Serial s act := fun _ _ h _ => h
  have hC : ∀ s σ, Run env Serial s σ → Run env Calm s σ := fun _ _ h => h.serial.1
  obtain ⟨s1, x1, h1, S1, p1, o1, k1⟩ := begin_alone (R := Run env Serial) Run.step hG hC h hidle ha (c := .update key) (by simp) hk
  obtain ⟨n, s2, x2, h2, S2, ⟨f, op, p2, hkey⟩, o2, k2⟩ := prepareU_alone (R := Run env Serial) Run.step hG hC _ h1 S1 p1 rfl (Nat.le_refl _)
  have k12 := k1.trans k2
  obtain ⟨t, seen, hI⟩ := h2.serial.1.inv
  have hm2 : (σ.next (.begun a (.update key))).map op.key ≠ none := by rw [hkey]; exact hm
  have hP := hI.proc a
  rw [p2] at hP
  have hf : f = true := by
    cases f with
    | true => rfl
    | false => exact absurd (hI.update_absent p2) hm2
  subst hf
  obtain ⟨v, hv2⟩ := Option.ne_none_iff_exists'.1 hm2
  have hown := hI.update_own p2 hv2
  have hmatch : env.fetch op.value = op.key := by rw [hown, (hI.stored hv2).2.1]
  have hall : env.Allowed s2 (.publish a value) := by simpa [Env.Allowed, p2, hkey] using hv
  obtain ⟨b, u, st', g1, g2⟩ := publishU_match (st := s2.st) (a := a) (op := op) (fetched := env.fetch op.value) (value := value) hP.2.1.symm
  have hb : b = true := by
    rcases publishU_inv hI p2 hall with herr | ⟨b', tl, st'', e1, e2, _⟩
    · rw [hmatch] at herr
      simp only [decide_true] at herr
      rw [hmatch] at g1
      rw [g1] at herr; cases herr
    · rw [hmatch] at e1
      simp only [decide_true] at e1
      rw [hmatch] at g1
      rw [g1] at e1
      cases e1
      cases hb : b with
      | true => rfl
      | false =>
        exfalso
        obtain ⟨i1, i2⟩ := e2 hb
        have := S2.now a
        rw [p2] at this
        exact i2 (this (by rw [i1]; rfl) (by rw [i1]; rfl)).1
  subst hb
  have he : exec env.fetch s2 (.publish a value) = some (.ok (s2.set a st' (.upd (.tail true { unl := u })), .put op.key (trunc55 value))) := by
    have : decide (env.fetch op.value = op.key) = true := decide_eq_true hmatch
    simp only [exec, p2, this, g1, bind, Except.bind, pure, Except.pure, if_true]
  have h3 := h2.step hall trivial he
  rcases tail_alone (R := Run env Serial) Run.step hG hC h3 (a := a) (b := true) (tl := { unl := u }) (.inl (by simp [Sys.set])) (fun b hb => by
    simp [Sys.set, upd_of_ne _ _ hb, o2 b hb, o1 b hb]) with ⟨m, j1, _⟩ | ⟨s4, x4, h4, hid, k4⟩
  · cases j1
  · refine ⟨n, s4, _, ?_, h4, hid, ?_, ?_, ?_⟩
    · unfold putSteps
      rw [x1, execs_append, x2]
      show execs env.fetch s2 [.publish a value, .tail a] = _
      rw [execs_one he, execs_one x4]; rfl
    · simp [Spec.next, Spec.change, hkey]
    · rw [k4.2.1]
      exact g2.1.2.1.trans k12.1.2.1
    · refine (k12.trans g2).taken.trans ?_
      have hrun : st'.runTail a { unl := u } = .ok s4.st := by
        simp only [exec, Sys.set, upd_same] at x4
        injection x4 with x4
        obtain ⟨st2, i1, i2⟩ := bind_ok x4
        cases i2
        exact i1
      unfold St.runTail at hrun
      obtain ⟨st5, i1, hrun⟩ := bind_ok hrun
      have q := (unlockBy_quiet i1).al.taken
      have hrun : (st5.addItems a 0).endOp a = s4.st := by injection hrun
      rw [← hrun]
      refine q.trans ⟨rfl, fun x => ?_⟩
      by_cases hx : x = a
      · subst hx; simp [St.addItems, St.endOp]
      · simp [St.addItems, St.endOp, upd_of_ne _ _ hx]

theorem updates_mem {env : Env} : ∀ (ops : List MapOp) {s : Sys} {σ : Spec}, Run env Serial s σ → (∀ b, s.proc b = .idle) →
    (∀ op ∈ ops, ∃ a key value, op = .put a key value ∧ a < s.st.nalloc ∧ env.keys key ∧ env.fetch (trunc55 value) = key ∧ σ.map key ≠ none) →
    ∃ s' σ', Performs env.fetch s ops s' ∧ Run env Serial s' σ' ∧ (∀ b, s'.proc b = .idle) ∧ σ'.map = ops.foldl MapOp.apply σ.map ∧ SameTaken s.st s'.st
  | [], s, σ, h, hidle, _ => ⟨s, σ, .nil s, h, hidle, rfl, rfl, fun _ => ⟨rfl, rfl⟩⟩
  | op :: ops, s, σ, h, hidle, hall => by
    obtain ⟨a, key, value, rfl, ha, hk, hv, hm⟩ := hall op (by simp)
    obtain ⟨n, s1, σ1, x1, h1, hid1, hm1, hn1, k1⟩ := update_mem h hidle ha hk hv hm
    obtain ⟨s2, σ2, p2, h2, hid2, hm2, k2⟩ := updates_mem ops h1 hid1 (fun op hop => by
      obtain ⟨a', key', value', e, ha', hk', hv', hm'⟩ := hall op (List.mem_cons_of_mem _ hop)
      refine ⟨a', key', value', e, by omega, hk', hv', ?_⟩
      rw [hm1]
      by_cases e' : key' = key
      · subst e'; simp
      · rw [upd_of_ne _ _ e']; exact hm')
    rw [putSteps_eq] at x1
    exact ⟨s2, σ2, .cons n x1 p2, h2, hid2, by rw [hm2, hm1]; rfl, k1.trans k2⟩

/-- C46 (part): any number of updates of keys that are stored run to their end and take no memory, at any time, however little memory is left and
whatever the length of the keys is.  (Missing: inserts and deletes; with deletes that merge nodes it is not true.) -/
theorem C46_updates_take_no_memory_partial {env : Env} {s : Sys} {σ : Spec} (h : Run env Serial s σ) (hidle : ∀ b, s.proc b = .idle) {ops : List MapOp}
    (hall : ∀ op ∈ ops, ∃ a key value, op = .put a key value ∧ a < s.st.nalloc ∧ env.keys key ∧ env.fetch (trunc55 value) = key ∧
      content env.fetch s.st key ≠ none) :
    ∃ s', Performs env.fetch s ops s' ∧ (∀ b, s'.proc b = .idle) ∧
      (∀ key, key ≠ [] → content env.fetch s'.st key = ops.foldl MapOp.apply (content env.fetch s.st) key) ∧
      s'.st.baNext = s.st.baNext ∧ ∀ a, (s'.st.allocs a).nextFree = (s.st.allocs a).nextFree ∧ (s'.st.allocs a).recycler = (s.st.allocs a).recycler := by
  obtain ⟨t, seen, hI⟩ := h.serial.1.inv
  obtain ⟨s', σ', h1, h2, h3, h4, h5⟩ := updates_mem ops h hidle fun op hop => by
    obtain ⟨a, key, value, e, ha, hk, hv, hm⟩ := hall op hop
    refine ⟨a, key, value, e, ha, hk, hv, ?_⟩
    rw [← hI.contents (env.ne hk)]; exact hm
  refine ⟨s', h1, h3, fun key hk => ?_, h5.1, h5.2⟩
  obtain ⟨t', seen', hI'⟩ := h2.serial.1.inv
  rw [hI'.contents hk, h4]
  have : ∀ (ops : List MapOp) {M M' : Map}, M key = M' key → ops.foldl MapOp.apply M key = ops.foldl MapOp.apply M' key := by
    intro ops
    induction ops with
    | nil => intro M M' h; exact h
    | cons op ops ih =>
      intro M M' h
      refine ih ?_
      cases op with
      | put a k v =>
        by_cases e : key = k
        · subst e; simp [MapOp.apply]
        · simp [MapOp.apply, upd_of_ne _ _ e, h]
      | del a k =>
        by_cases e : key = k
        · subst e; simp [MapOp.apply]
        · simp [MapOp.apply, upd_of_ne _ _ e, h]
  exact this ops (hI.contents hk).symm

/-- The hypotheses are met: "aa", "ab" and "b" are stored; the values of "aa" and "b" are replaced. -/
example : ∃ s σ, Run leakEnv Serial s σ ∧ (∀ b, s.proc b = .idle) ∧
    ∀ op ∈ [MapOp.put 0 [97, 97] 3, .put 0 [98] 5], ∃ a key value, op = .put a key value ∧ a < s.st.nalloc ∧ leakEnv.keys key ∧
      leakEnv.fetch (trunc55 value) = key ∧ content leakEnv.fetch s.st key ≠ none := by
  rcases ops_alone (env := leakEnv) (G := Serial) (R := Run leakEnv Serial) Run.step (fun _ _ h _ => h) (fun _ _ h => h.serial.1)
    [.put 0 [97, 97] 0, .put 0 [97, 98] 1, .put 0 [98] 2] (.inl fun _ _ h => h) (Run.init 1) (fun _ => rfl)
    ⟨⟨by decide, by simp [leakEnv, Env.ofList, leakKeys], by decide +kernel⟩, ⟨by decide, by simp [leakEnv, Env.ofList, leakKeys], by decide +kernel⟩,
      ⟨by decide, by simp [leakEnv, Env.ofList, leakKeys], by decide +kernel⟩, trivial⟩ with
    ⟨s', σ', h1, h2, h3, h4, _, h6⟩ | ⟨done, op, rest, s', k, s1, h1, h2, h3, h4⟩
  · refine ⟨s', σ', h2, h3, fun op hop => ?_⟩
    obtain ⟨t, seen, hI⟩ := h2.serial.1.inv
    have hn : 0 < s'.st.nalloc := by rw [h6]; decide
    simp only [List.mem_cons, List.not_mem_nil, or_false] at hop
    rcases hop with rfl | rfl
    · refine ⟨0, _, _, rfl, hn, by simp [leakEnv, Env.ofList, leakKeys], by decide +kernel, ?_⟩
      rw [hI.contents (by simp), h4]; simp [MapOp.apply, upd]
    · refine ⟨0, _, _, rfl, hn, by simp [leakEnv, Env.ofList, leakKeys], by decide +kernel, ?_⟩
      rw [hI.contents (by simp), h4]; simp [MapOp.apply, upd]
  · exfalso
    rcases h4 with ⟨_, h5, h6⟩ | ⟨h4, _⟩
    · have h7 : (Sys.new 1).st.baNext = 0 := rfl
      have := congrArg List.length h1
      simp only [List.length_append, List.length_cons, List.length_nil] at this
      unfold maxBlockCount at h5
      omega
    · exact h4 leakEnv_short

end Radix
