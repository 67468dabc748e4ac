import Verif.Properties.Reuse
/-!
# How much memory has been taken

`vol a st` measures the memory that allocator `a` has taken from its blocks and that is not waiting in its recycler, in bytes.
-/
set_option autoImplicit false
namespace Radix
open T

/-- Slots waiting in the recycler. -/
def recSum (r : Nat → List Item) : Nat := ((List.range recyclerLen).map fun t => t * (r t).length).sum

/-- Bytes of the blocks handed out, up to the place where allocator `a` goes on, without what waits in its recycler. -/
def vol (a : Nat) (st : St) : Int := st.baNext * blockSize + (st.allocs a).nextFree - 8 * recSum (st.allocs a).recycler

theorem recSum_upd (r : Nat → List Item) {t : Nat} (ht : t < recyclerLen) (l : List Item) :
    recSum (upd r t l) + t * (r t).length = recSum r + t * l.length := by
  have : (fun x => x * (upd r t l x).length) = upd (fun x => x * (r x).length) t (t * l.length) := by
    funext x
    by_cases h : x = t
    · subst h; simp
    · simp [upd_of_ne _ _ h]
  unfold recSum
  rw [this]
  exact sum_upd (f := fun x => x * (r x).length) _ List.nodup_range (List.mem_range.2 ht)

theorem vol_congr {a : Nat} {st st' : St} (h1 : st'.baNext = st.baNext) (h2 : (st'.allocs a).nextFree = (st.allocs a).nextFree)
    (h3 : (st'.allocs a).recycler = (st.allocs a).recycler) : vol a st' = vol a st := by
  unfold vol; rw [h1, h2, h3]

theorem Quiet.vol {a : Nat} {st st' : St} (h : Quiet st st') : vol a st' = vol a st :=
  vol_congr h.baNext (by rw [h.allocs]) (by rw [h.allocs])

theorem vol_le {a : Nat} {st : St} (hf : (st.allocs a).nextFree ≤ blockSize) (hb : st.baNext ≤ maxBlockCount) :
    vol a st ≤ (maxBlockCount + 1) * blockSize := by
  unfold vol
  have : st.baNext * blockSize ≤ maxBlockCount * blockSize := Nat.mul_le_mul_right _ hb
  rw [Int.add_mul]
  omega

/-- Allocating takes memory. -/
theorem newNode_vol {st st' : St} {a slots n : Nat} (hs : slots * 8 ≤ blockSize) (hf : (st.allocs a).nextFree ≤ blockSize)
    (h : st.newNode a slots = .ok (n, st')) :
    vol a st + 8 * slots ≤ vol a st' ∧ (st'.allocs a).nextFree ≤ blockSize := by
  unfold St.newNode at h
  simp only at h
  split at h
  · rename_i t it rest hf'
    injection h with h
    injection h with _ h
    obtain ⟨t', ht', hp⟩ := List.exists_of_findSome?_eq_some hf'
    obtain ⟨q, hp, he⟩ := Option.map_eq_some_iff.1 hp
    obtain ⟨rfl, rfl⟩ := Prod.mk.inj he
    have hts : t' = slots ∨ slots + 2 ≤ t' := by
      unfold sizesToTry at ht'
      split at ht'
      · rcases List.mem_cons.1 ht' with rfl | h
        · exact .inl rfl
        · have := List.mem_range'_1.1 h
          exact .inr this.1
      · simp at ht'
    have htl : t' < recyclerLen := by
      unfold sizesToTry at ht'
      split at ht'
      · rcases List.mem_cons.1 ht' with rfl | h
        · assumption
        · have := List.mem_range'_1.1 h
          omega
      · simp at ht'
    have hl : ((st.allocs a).recycler t').length = rest.length + 1 := by
      have := (pickItem_perm hp).1.length_eq
      simpa using this.symm
    have e1 := recSum_upd (st.allocs a).recycler htl rest
    rw [hl, Nat.mul_add] at e1
    subst h
    refine ⟨?_, by simpa using hf⟩
    unfold vol
    simp only [upd_same]
    split
    · rename_i h2
      have e2 := recSum_upd (upd (st.allocs a).recycler t' rest) (t := t' - slots) (by omega)
        (upd (st.allocs a).recycler t' rest (t' - slots) ++ [⟨it.n + slots, it.e⟩])
      rw [List.length_append, Nat.mul_add, List.length_singleton] at e2
      omega
    · omega
  · unfold St.allocFresh at h
    simp only at h
    split at h
    · obtain ⟨s1, h1, h⟩ := bind_ok h
      have e1 : s1.baNext = st.baNext := by
        unfold St.blockStep at h1
        repeat' split at h1
        all_goals first | (cases h1; rfl) | cases h1
      cases h
      refine ⟨?_, ?_⟩
      · unfold vol
        simp only [upd_same, e1]
        rw [Int.natCast_add, Int.add_mul]
        omega
      · simp only [upd_same]
        exact hs
    · cases h
      refine ⟨?_, ?_⟩
      · unfold vol
        simp only [upd_same]
        omega
      · simp only [upd_same]
        omega

theorem allocNodeP_vol {st st' : St} {a count n : Nat} {pfx : List UInt8} {d : Slice} (hs : (count + prefixSlots pfx.length) * 8 ≤ blockSize)
    (hf : (st.allocs a).nextFree ≤ blockSize) (h : st.allocNodeP a count pfx = .ok (n, d, st')) :
    vol a st + 8 * (count + prefixSlots pfx.length : Nat) ≤ vol a st' ∧ (st'.allocs a).nextFree ≤ blockSize := by
  unfold St.allocNodeP at h
  obtain ⟨⟨n1, st1⟩, h1, h⟩ := bind_ok h
  have h2 := newNode_vol hs hf h1
  obtain ⟨d1, _, h⟩ := bind_ok h
  split at h
  · obtain ⟨m, _, h⟩ := bind_ok h
    obtain ⟨d2, _, h⟩ := bind_ok h
    cases h
    exact h2
  · cases h
    exact h2

/-- The memory taken by an insert that splits a prefix. -/
theorem publishU_vol {st st' : St} {a : Nat} {op : UpdOp} {fetched : Key} {m b : Bool} {value : Word} {tl : Tail}
    (hk : op.kind = .nodePrefixMiss) (hc : op.count ≤ 256) (hp : prefixSlots (op.pfx.drop (op.prefixMismatch + 1)).length ≤ 64)
    (hp' : prefixSlots ((op.key.drop op.depth).take op.prefixMismatch).length ≤ 64)
    (hf : (st.allocs a).nextFree ≤ blockSize) (h : publishU st a op fetched m value = .ok (b, tl, st')) :
    vol a st + 8 * (op.count + prefixSlots (op.pfx.drop (op.prefixMismatch + 1)).length : Nat) +
      8 * (2 + prefixSlots ((op.key.drop op.depth).take op.prefixMismatch).length : Nat) ≤ vol a st' ∧
    tl.free = some (op.node, op.count + op.prefixSlots) := by
  have hbs : blockSize = 2097152 := rfl
  unfold publishU at h
  rw [hk] at h
  obtain ⟨ka, _, h⟩ := bind_ok h
  obtain ⟨kb, _, h⟩ := bind_ok h
  obtain ⟨⟨n1, d1, st1⟩, h1, h⟩ := bind_ok h
  obtain ⟨v1, f1⟩ := allocNodeP_vol (by omega) hf h1
  obtain ⟨src, _, h⟩ := bind_ok h
  obtain ⟨ws, _, h⟩ := bind_ok h
  obtain ⟨⟨n2, d2, st2⟩, h2, h⟩ := bind_ok h
  obtain ⟨v2, f2⟩ := allocNodeP_vol (st := { st1 with mem := d1.copy st1.mem ws }) (by omega) f1 h2
  obtain ⟨m', _, h⟩ := bind_ok h
  cases h
  refine ⟨?_, rfl⟩
  have e1 : vol a { st1 with mem := d1.copy st1.mem ws } = vol a st1 := rfl
  rw [e1] at v2
  have e2 : ∀ (st : St) (p : Ptr) (w : Word), vol a (st.store p w) = vol a st := by
    intro st p w
    cases p <;> rfl
  rw [e2]
  have e3 : vol a { st2 with mem := m' } = vol a st2 := rfl
  rw [e3]
  omega

/-- The memory taken by a delete that merges two nodes. -/
theorem publishD_vol {st st' : St} {a : Nat} {op : DelOp} {b : Bool} {tl : Tail}
    (hk : op.kind = .replaceNodeWithNode) (hc : op.count ≤ 256) (hp : prefixSlots op.pfx.length ≤ 64)
    (hf : (st.allocs a).nextFree ≤ blockSize) (h : publishD st a op = .ok (b, tl, st')) :
    vol a st + 8 * (op.count + prefixSlots op.pfx.length : Nat) ≤ vol a st' ∧ tl.free = some (op.child, op.count + op.prefixSlots) := by
  have hbs : blockSize = 2097152 := rfl
  unfold publishD at h
  rw [hk] at h
  obtain ⟨⟨n1, d1, st1⟩, h1, h⟩ := bind_ok h
  obtain ⟨v1, f1⟩ := allocNodeP_vol (by omega) hf h1
  obtain ⟨src, _, h⟩ := bind_ok h
  obtain ⟨ws, _, h⟩ := bind_ok h
  cases h
  refine ⟨?_, rfl⟩
  have e2 : ∀ (st : St) (p : Ptr) (w : Word), vol a (st.store p w) = vol a st := by
    intro st p w
    cases p <;> rfl
  rw [e2]
  exact v1

theorem recycle_vol {st st' : St} {a n sl : Nat} (h : st.recycle a n sl = .ok st') : vol a st ≤ vol a st' + 8 * sl := by
  unfold St.recycle at h
  simp only at h
  split at h
  · cases h; omega
  · split at h
    · rename_i hlt
      have e1 := recSum_upd (st.allocs a).recycler hlt ((st.allocs a).recycler sl ++ [⟨n, st.epoch⟩])
      rw [List.length_append, Nat.mul_add, List.length_singleton] at e1
      split at h
      · cases h
        unfold vol
        simp only [St.flushStats, upd_same]
        omega
      · cases h
        unfold vol
        simp only [upd_same]
        omega
    · cases h

/-- The rest of `Finalize` gives back at most the memory of one node. -/
theorem runTail_vol {st st' : St} {a n sl : Nat} {tl : Tail} (hfr : tl.free = some (n, sl)) (h : st.runTail a tl = .ok st') :
    vol a st ≤ vol a st' + 8 * sl := by
  unfold St.runTail at h
  obtain ⟨s1, h1, h⟩ := bind_ok h
  have k1 : vol a s1 = vol a st := (unlockBy_quiet h1).vol
  rw [hfr] at h
  obtain ⟨s2, h2, h⟩ := bind_ok h
  cases h
  have := recycle_vol h2
  have e : vol a ((s2.addItems a tl.items).endOp a) = vol a s2 := vol_congr rfl (by simp [St.addItems, St.endOp]) (by simp [St.addItems, St.endOp])
  omega

theorem Inv.nextFree {env : Env} {s : Sys} {σ : Spec} {t : T} {seen : Nat → T → Prop} (hI : Inv env s σ t seen) {a : Nat} (ha : a < s.st.nalloc) :
    (s.st.allocs a).nextFree ≤ blockSize := by
  have hbs : blockSize = 2097152 := rfl
  rcases (hI.mem.core.ok a ha).bump with ⟨h1, h2, h3⟩ | ⟨h1, h2, h3⟩
  · omega
  · omega

theorem Inv.vol_le {env : Env} {s : Sys} {σ : Spec} {t : T} {seen : Nat → T → Prop} (hI : Inv env s σ t seen) {a : Nat} (ha : a < s.st.nalloc) :
    vol a s.st ≤ (maxBlockCount + 1) * blockSize := Radix.vol_le (hI.nextFree ha) hI.mem.core.bn

end Radix
