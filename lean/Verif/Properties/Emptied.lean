import Verif.Properties.Wide
/-!
# Nodes with 256 slots stay in the tree

A node with 256 slots is never replaced by a smaller one, even when all keys below it are deleted.
-/
set_option autoImplicit false
namespace Radix
open T

/-! ## Following a node -/

/-- The state after some execution, with a tree that has a node with 256 slots at the partial key `p`. -/
def BigRun (env : Env) (p : List UInt8) (s : Sys) (σ : Spec) : Prop :=
  Run env Serial s σ ∧ ∃ t seen, Inv env s σ t seen ∧ t.HasBig p

/-- No step removes the node. -/
theorem BigRun.step {env : Env} {p : List UInt8} {s : Sys} {σ : Spec} {act : Act} {s' : Sys} {ev : Ev} (h : BigRun env p s σ)
    (hall : env.Allowed s act) (hser : Serial s act) (he : exec env.fetch s act = some (.ok (s', ev))) : BigRun env p s' (σ.next ev) := by
  obtain ⟨hr, t, seen, hI, hb⟩ := h
  refine ⟨hr.step hall hser he, ?_⟩
  have hcalm := hr.serial.2.calm hI hser.oneWriter
  rcases exec_inv hI hall hcalm he with ⟨s1, ev1, t', seen', e, hI', _, _, hk, _⟩ | ⟨e, h, _⟩
  · injection e with e; injection e with e1 e2; subst e1 e2
    exact ⟨t', seen', hI', hk p hb⟩
  · cases h

/-- Any list of updates and deletes. -/
theorem BigRun.ops {env : Env} (hshort : env.Short) {p : List UInt8} {s : Sys} {σ : Spec} (h : BigRun env p s σ) (hidle : ∀ b, s.proc b = .idle)
    {ops : List MapOp} (hv : ValidOps env s.st.nalloc σ.map ops) (hmem : s.st.baNext + 2 * ops.length ≤ maxBlockCount) :
    ∃ s' σ', Performs env.fetch s ops s' ∧ BigRun env p s' σ' ∧ (∀ b, s'.proc b = .idle) ∧ σ'.map = ops.foldl MapOp.apply σ.map := by
  rcases ops_alone (env := env) (G := Serial) (R := BigRun env p) BigRun.step (fun _ _ h _ => h) (fun _ _ h => h.1.serial.1) ops
    (.inl fun _ _ h => h) h hidle hv with ⟨s', σ', h1, h2, h3, h4, _, _⟩ | ⟨done, op, rest, s', k, s1, h1, h2, h3, h4⟩
  · exact ⟨s', σ', h1, h2, h3, h4⟩
  · exfalso
    rcases h4 with ⟨_, h5, h6⟩ | ⟨h4, _⟩
    · rw [h1] at hmem
      simp only [List.length_append, List.length_cons] at hmem
      omega
    · exact h4 hshort

theorem wide_short : wideEnv.Short := by
  intro k hk
  rcases hk with rfl | rfl | ⟨c, rfl⟩ <;> simp

/-- After storing "a" and all keys "b?" there is a node with 256 slots below "b". -/
theorem wide_big : ∃ s σ, Performs wideEnv.fetch (Sys.new 1) widePuts s ∧ BigRun wideEnv [98] s σ ∧ (∀ b, s.proc b = .idle) ∧
    σ.map = wideMap ∧ s.st.baNext ≤ 514 ∧ s.st.nalloc = 1 := by
  obtain ⟨s, σ, h1, h2, h3, h4, h5, h6⟩ := wide_state
  obtain ⟨t, seen, hI, hd⟩ := h2.serialInserts.insertOnly
  obtain ⟨n, ch, n2, ch2, k, v, ht, hk, h97, h98, hlf⟩ := wide_shape hd hI.mem.core.wf (fun k v => by rw [hI.has_iff, h4])
  refine ⟨s, σ, h1, ⟨h2.mono fun _ _ h => h.1, t, seen, hI, ?_⟩, h3, h4, h5, h6⟩
  subst ht
  exact .inr ⟨98, [], rfl, by rw [h98]; exact .inl ⟨rfl, rfl⟩⟩

/-! ## Deleting the keys below the node -/

/-- Delete all keys "b?". -/
def wideDels : List MapOp := allBytes.map fun c => .del 0 [98, c]

theorem foldl_dels_b {M : Map} : ∀ (cs : List UInt8) (k : Key),
    (cs.map fun c => MapOp.del 0 [98, c]).foldl MapOp.apply M k =
      match k with
      | [98, c] => if c ∈ cs then none else M k
      | _ => M k := by
  intro cs
  induction cs generalizing M with
  | nil => intro k; simp only [List.map_nil, List.foldl_nil, List.not_mem_nil, if_false]; split <;> rfl
  | cons d cs ih =>
    intro k
    rw [List.map_cons, List.foldl_cons, ih]
    simp only [MapOp.apply]
    split
    · rename_i c
      by_cases h1 : c ∈ cs
      · rw [if_pos h1, if_pos (List.mem_cons_of_mem _ h1)]
      · rw [if_neg h1]
        by_cases h2 : c = d
        · subst h2; simp
        · rw [upd_of_ne _ _ (by simp [h2]), if_neg (by simp [h1, h2])]
    · rename_i hk
      exact upd_of_ne _ _ (hk d)

theorem validOps_dels {M : Map} : ∀ {cs : List UInt8}, cs.Nodup → (∀ c ∈ cs, M [98, c] ≠ none) →
    ValidOps wideEnv 1 M (cs.map fun c => MapOp.del 0 [98, c])
  | [], _, _ => trivial
  | c :: cs, hn, h => by
    refine ⟨⟨by decide, h c (by simp)⟩, validOps_dels (List.nodup_cons.1 hn).2 fun d hd => ?_⟩
    have hne : d ≠ c := fun e => (List.nodup_cons.1 hn).1 (e ▸ hd)
    simp only [MapOp.apply]
    rw [upd_of_ne _ _ (by simp [hne])]
    exact h d (List.mem_cons_of_mem _ hd)

/-- The shape of a tree with the node but no keys below it. -/
theorem emptied_shape {t : T} (hwf : t.WF wideEnv.P []) (hb : t.HasBig [98]) (hh : ∀ k v, t.Has k v → k = [97] ∨ k = [99])
    (hne : ∃ k v, t.Has k v) :
    ∃ n big ch n2 ch2, t = .node n [] big ch ∧ ch 98 = .node n2 [] true ch2 ∧ (∀ c, ch2 c = .empty) ∧
      ∀ c, c ≠ 98 → ch c = .empty ∨ ∃ v, ch c = .leaf [c] v ∧ t.Has [c] v := by
  cases t with
  | empty => cases hb
  | leaf => cases hb
  | node n pfx big ch =>
    obtain ⟨hbr, _, hkids⟩ := hwf
    rcases hb with ⟨_, rfl⟩ | ⟨c, r, e, hb⟩
    · -- all keys would begin with "b"
      exfalso
      obtain ⟨k, v, c, hc⟩ := hne
      have h1 := ((hkids c).has hc).1
      rcases hh k v ⟨c, hc⟩ with rfl | rfl <;> simp at h1
    · cases pfx with
      | cons x xs => simp at e
      | nil =>
        simp only [List.nil_append, List.cons.injEq] at e
        obtain ⟨rfl, rfl⟩ := e
        cases hc98 : ch 98 with
        | empty => rw [hc98] at hb; cases hb
        | leaf => rw [hc98] at hb; cases hb
        | node n2 pfx2 big2 ch2 =>
          rw [hc98] at hb
          rcases hb with ⟨rfl, rfl⟩ | ⟨_, _, e, _⟩
          · refine ⟨n, big, ch, n2, ch2, rfl, hc98, fun c => ?_, fun c hc => ?_⟩
            · have h1 := hkids 98
              rw [hc98] at h1
              have h2 := h1.2.2 c
              cases hcc : ch2 c with
              | empty => rfl
              | leaf k v =>
                exfalso
                rw [hcc] at h2
                have h3 := hh k v ⟨98, by rw [hc98]; exact ⟨c, by rw [hcc]; exact ⟨rfl, rfl⟩⟩⟩
                have h4 := h2.1
                rcases h3 with rfl | rfl <;> simp at h4
              | node n3 pfx3 big3 ch3 =>
                exfalso
                rw [hcc] at h2
                obtain ⟨⟨_, k, v, d, ⟨hP, _⟩, h4⟩, _⟩ := h2
                have h5 := h4.length_le
                rcases hP with rfl | rfl | ⟨c', rfl⟩ <;> simp at h5 <;> omega
            · have h1 := hkids c
              cases hcc : ch c with
              | empty => exact .inl rfl
              | leaf k v =>
                rw [hcc] at h1
                have h3 : T.Has (.node n [] big ch) k v := ⟨c, by rw [hcc]; exact ⟨rfl, rfl⟩⟩
                have h4 : k = [c] := by
                  have h5 := h1.1
                  rcases hh k v h3 with rfl | rfl <;> simp at h5 <;> simp [h5]
                subst h4
                exact .inr ⟨v, rfl, h3⟩
              | node n3 pfx3 big3 ch3 =>
                exfalso
                rw [hcc] at h1
                obtain ⟨⟨_, k, v, d, ⟨hP, _⟩, h4⟩, _⟩ := h1
                have h5 := h4.length_le
                rcases hP with rfl | rfl | ⟨c', rfl⟩
                · simp at h5
                · simp at h5
                · simp at h4
                  exact hc h4.1
          · simp at e
/-! ## Two states -/

theorem Performs.append {fetch : Word → Key} {s1 s2 s3 : Sys} {ops ops' : List MapOp} (h : Performs fetch s1 ops s2)
    (h' : Performs fetch s2 ops' s3) : Performs fetch s1 (ops ++ ops') s3 := by
  induction h with
  | nil s => exact h'
  | cons k x _ ih => exact .cons k x (ih h')

theorem validOps_append {env : Env} {n : Nat} : ∀ {ops ops' : List MapOp} {M : Map},
    ValidOps env n M (ops ++ ops') ↔ ValidOps env n M ops ∧ ValidOps env n (ops.foldl MapOp.apply M) ops'
  | [], _, _ => by simp [ValidOps]
  | op :: ops, _, M => by
    rw [List.cons_append, ValidOps, ValidOps, validOps_append, List.foldl_cons, and_assoc]

/-- One key "a" is stored, and below "b" there is a node without keys. -/
theorem emptied_max : ∃ s σ, Performs wideEnv.fetch (Sys.new 1) (widePuts ++ wideDels) s ∧ BigRun wideEnv [98] s σ ∧ (∀ b, s.proc b = .idle) ∧
    ∀ k v, σ.map k = some v ↔ k = [97] ∧ v = 256 := by
  obtain ⟨s, σ, h1, h2, h3, h4, h5, h6⟩ := wide_big
  have hlen : wideDels.length = 256 := by simp [wideDels, allBytes]
  obtain ⟨s', σ', g1, g2, g3, g4⟩ := h2.ops wide_short h3 (ops := wideDels)
    (by rw [h6, h4]; exact validOps_dels allBytes_nodup fun c _ => by rw [wideMap_b]; simp)
    (by rw [hlen]; unfold maxBlockCount; omega)
  refine ⟨s', σ', h1.append g1, g2, g3, fun k v => ?_⟩
  rw [g4, h4]
  unfold wideDels
  rw [foldl_dels_b]
  split
  · rw [if_pos (mem_allBytes _)]; simp
  · rename_i hk
    rw [wideMap_eq]
    split
    · exact absurd rfl (hk _)
    · split
      · rename_i e; subst e; simp [eq_comm]
      · rename_i e; simp [e]

/-- One key "c" is stored, and below "b" there is a node without keys. -/
theorem emptied_min : ∃ s σ, Performs wideEnv.fetch (Sys.new 1) (widePuts ++ .put 0 [99] 257 :: (wideDels ++ [.del 0 [97]])) s ∧
    BigRun wideEnv [98] s σ ∧ (∀ b, s.proc b = .idle) ∧ ∀ k v, σ.map k = some v ↔ k = [99] ∧ v = 257 := by
  obtain ⟨s, σ, h1, h2, h3, h4, h5, h6⟩ := wide_big
  have hlen : wideDels.length = 256 := by simp [wideDels, allBytes]
  obtain ⟨s', σ', g1, g2, g3, g4⟩ := h2.ops wide_short h3 (ops := .put 0 [99] 257 :: (wideDels ++ [.del 0 [97]]))
    (by
      rw [h6, h4]
      refine ⟨⟨by decide, .inr (.inl rfl), by decide +kernel⟩, validOps_append.2 ⟨validOps_dels allBytes_nodup fun c _ => ?_, ?_⟩⟩
      · simp only [MapOp.apply]
        rw [upd_of_ne _ _ (by simp), wideMap_b]; simp
      · refine ⟨⟨by decide, ?_⟩, trivial⟩
        unfold wideDels
        rw [foldl_dels_b]
        simp only [MapOp.apply]
        rw [upd_of_ne _ _ (by simp), wideMap_a]; simp)
    (by simp only [List.length_cons, List.length_append, hlen, List.length_nil]; unfold maxBlockCount; omega)
  refine ⟨s', σ', h1.append g1, g2, g3, fun k v => ?_⟩
  rw [g4, h4, List.foldl_cons, List.foldl_append, List.foldl_cons, List.foldl_nil]
  have e257 : trunc55 257 = 257 := by decide +kernel
  by_cases h97 : k = [97]
  · subst h97
    simp [MapOp.apply]
  · rw [show ∀ M : Map, (MapOp.del 0 [97]).apply M k = M k from fun M => upd_of_ne _ _ h97]
    unfold wideDels
    rw [foldl_dels_b]
    split
    · rw [if_pos (mem_allBytes _)]; simp
    · rename_i hk
      simp only [MapOp.apply, e257]
      by_cases h99 : k = [99]
      · subst h99; simp [eq_comm]
      · rw [upd_of_ne _ _ h99, wideMap_eq]
        split
        · exact absurd rfl (hk _)
        · simp [h97, h99]

/-! ## The theorems -/

theorem emptied_listing {M : Map} {key : Key} {val : Word} (hm : ∀ k v, M k = some v ↔ k = key ∧ v = val) : Listing M [] [(key, val)] :=
  ⟨by simp, fun k v => by rw [hm]; simp⟩

/-- The walks of `MinKey` and `MaxKey` end in the node without keys. -/
theorem emptied_walk {t : T} {x : UInt8} {val : Word} (hx : x = 97 ∨ x = 99) (hwf : t.WF wideEnv.P []) (hb : t.HasBig [98])
    (hh : ∀ k v, t.Has k v ↔ k = [x] ∧ v = val) : (x = 97 → t.last = none) ∧ (x = 99 → t.first = none) := by
  obtain ⟨n, big, ch, n2, ch2, rfl, h98, h2, hc⟩ := emptied_shape hwf hb
    (fun k v h => by have := ((hh k v).1 h).1; rcases hx with rfl | rfl <;> simp [this]) ⟨_, _, (hh _ _).2 ⟨rfl, rfl⟩⟩
  have hp : (fun c => !(ch c).isEmpty) = fun c => c == 98 || (c == x && !(ch x).isEmpty) := by
    funext c
    by_cases h1 : c = 98
    · subst h1; simp [h98, T.isEmpty]
    · by_cases h3 : c = x
      · subst h3; simp [h1]
      · have : ch c = .empty := by
          rcases hc c h1 with h | ⟨v, _, h⟩
          · exact h
          · exact absurd (by simpa using ((hh _ _).1 h).1) h3
        simp [h1, h3, this, T.isEmpty]
  have hlast : (ch 98).last = none := by
    have : (fun c => !(ch2 c).isEmpty) = fun _ => false := by funext c; rw [h2 c]; rfl
    rw [h98]
    simp only [T.last, this]
    have : allBytes.reverse.find? (fun _ => false) = none := by decide +kernel
    rw [this]
  have hfirst : (ch 98).first = none := by
    have : (fun c => !(ch2 c).isEmpty) = fun _ => false := by funext c; rw [h2 c]; rfl
    rw [h98]
    simp only [T.first, this]
    have : allBytes.find? (fun _ => false) = none := by decide +kernel
    rw [this]
  constructor
  · rintro rfl
    simp only [T.last, hp]
    have : allBytes.reverse.find? (fun c => c == 98 || (c == 97 && !(ch 97).isEmpty)) = some 98 := by
      cases (ch 97).isEmpty <;> decide +kernel
    rw [this]
    exact hlast
  · rintro rfl
    simp only [T.first, hp]
    have : allBytes.find? (fun c => c == 98 || (c == 99 && !(ch 99).isEmpty)) = some 98 := by
      cases (ch 99).isEmpty <;> decide +kernel
    rw [this]
    exact hfirst

/-- C36 in full. -/
def C36_statement : Prop :=
  ∀ (env : Env) (s : Sys) (σ : Spec), Run env Serial s σ → (∃ k v, σ.map k = some v) →
    ∃ N, ∀ fuel ≥ N, ∃ c, count s.st fuel [] = .ok c ∧ c.nodes < c.leaves

/-- C36 does not hold: after storing "a" and all keys "b?" and deleting all keys "b?", one key is stored and `Count` reports two nodes. -/
theorem C36_does_not_hold : ¬ C36_statement := by
  intro hall
  obtain ⟨s, σ, _, ⟨hr, t, seen, hI, hb⟩, _, hm⟩ := emptied_max
  have hhas : ∀ k v, t.Has k v ↔ k = [97] ∧ v = 256 := fun k v => by rw [hI.has_iff, hm]
  obtain ⟨n, big, ch, n2, ch2, rfl, h98, h2, hc⟩ := emptied_shape hI.mem.core.wf hb (fun k v h => .inl ((hhas k v).1 h).1) ⟨_, _, (hhas _ _).2 ⟨rfl, rfl⟩⟩
  obtain ⟨N, hN⟩ := hall _ s σ hr ⟨_, _, (hm _ _).2 ⟨rfl, rfl⟩⟩
  obtain ⟨b0, t0, q0, d, e0, h1, hh, _⟩ := hI.seek [] fun h => absurd rfl h
  obtain ⟨c, h3, h4⟩ := hN (N + 2 * t0.nodes + 1) (by omega)
  obtain ⟨c', h5, h6, h7, _⟩ := count_tree hh h1 (fuel := N + 2 * t0.nodes + 1) (by omega)
  rw [h3] at h5
  cases h5
  have e1 : t0 = .node n [] big ch := e0
  have e2 := hI.listing_nil.unique (emptied_listing hm)
  rw [h6, h7, e1, e2] at h4
  have e3 : T.nodes (.node n [] big ch) = 1 + sumB fun c => (ch c).nodes := rfl
  have e4 := le_sumB (fun c => (ch c).nodes) 98
  simp only [h98, T.nodes] at e4
  rw [e3] at h4
  simp only [List.length_cons, List.length_nil] at h4
  omega

/-- `MaxKey(nil)` does not find the key "a" in this tree: C17 fails also for a prefix that a key has. -/
theorem C17_max_key_misses_a_stored_key : ∃ s σ, Run wideEnv Serial s σ ∧ (∀ b, s.proc b = .idle) ∧ Listing σ.map [] [([97], 256)] ∧
    ∃ N, ∀ fuel ≥ N, maxKey s.st fuel [] = .ok none := by
  obtain ⟨s, σ, _, ⟨hr, t, seen, hI, hb⟩, hid, hm⟩ := emptied_max
  have hhas : ∀ k v, t.Has k v ↔ k = [97] ∧ v = _ := fun k v => by rw [hI.has_iff, hm]
  have hw := (emptied_walk (by simp) hI.mem.core.wf hb hhas).1 rfl
  obtain ⟨b0, t0, q0, d, e0, h1, hh, _⟩ := hI.seek [] fun h => absurd rfl h
  have e1 : t0 = t := by
    rw [e0]
    cases t with
    | empty => rfl
    | leaf => cases hb
    | node => simp [T.seekRoot, T.seek]
  obtain ⟨N, hN⟩ := maxKey_held hh h1
  refine ⟨s, σ, hr, hid, emptied_listing hm, N, fun fuel hf => ?_⟩
  rw [hN fuel hf, e1, hw]
  rfl

/-- `MinKey(nil)` does not find the key "c". -/
theorem C16_min_key_misses_a_stored_key : ∃ s σ, Run wideEnv Serial s σ ∧ (∀ b, s.proc b = .idle) ∧ Listing σ.map [] [([99], 257)] ∧
    ∃ N, ∀ fuel ≥ N, minKey s.st fuel [] = .ok none := by
  obtain ⟨s, σ, _, ⟨hr, t, seen, hI, hb⟩, hid, hm⟩ := emptied_min
  have hhas : ∀ k v, t.Has k v ↔ k = [99] ∧ v = _ := fun k v => by rw [hI.has_iff, hm]
  have hw := (emptied_walk (by simp) hI.mem.core.wf hb hhas).2 rfl
  obtain ⟨b0, t0, q0, d, e0, h1, hh, _⟩ := hI.seek [] fun h => absurd rfl h
  have e1 : t0 = t := by
    rw [e0]
    cases t with
    | empty => rfl
    | leaf => cases hb
    | node => simp [T.seekRoot, T.seek]
  obtain ⟨N, hN⟩ := minKey_held hh h1
  refine ⟨s, σ, hr, hid, emptied_listing hm, N, fun fuel hf => ?_⟩
  rw [hN fuel hf, e1, hw]
  rfl

end Radix
