import Verif.Sys.EpochInv
/-!
# C51: memory is handed out again only after all operations that may still read it, access by access
-/
set_option autoImplicit false
namespace Radix

/-- Slot `x` belongs to the node `p`. -/
def Piece.Has (p : Piece) (x : Nat) : Prop := p.1 ≤ x ∧ x < p.1 + p.2

/-- Slot `x` is on the free list of `a` for nodes of some size. -/
def OnList (st : St) (a x : Nat) : Prop := ∃ t it, t < recyclerLen ∧ it ∈ (st.allocs a).recycler t ∧ it.n ≤ x ∧ x < it.n + t

/-- The slots of a node that an allocator has been given and has not published yet are in use by nobody else: no operation can have come across them, they
are not in the tree, not in another node given out, not in a node waiting to be recycled, on no free list and in no block not given out. -/
def C51_statement : Prop :=
  ∀ s : ESys, ERun s → ∀ (a : Nat) (p : Piece) (x : Nat), p ∈ s.priv a → p.Has x →
    (∀ (b : Nat) (q : Piece), q ∈ s.known b → ¬ q.Has x) ∧
    (∀ q : Piece, q ∈ s.tree → ¬ q.Has x) ∧
    (∀ q : Piece, q ∈ (s.priv a).erase p → ¬ q.Has x) ∧
    (∀ (b : Nat) (q : Piece), b ≠ a → q ∈ s.priv b → ¬ q.Has x) ∧
    (∀ (b : Nat) (q : Piece), q ∈ s.owed b → ¬ q.Has x) ∧
    (∀ b n slots e, s.ph b = .freed n slots e → ¬ Piece.Has (n, slots) x) ∧
    (∀ b, b < s.st.nalloc → ¬ OnList s.st b x) ∧
    x < s.st.baNext * blockSlots

theorem Piece.Has.seg {p : Piece} {x : Nat} (h : p.Has x) : Radix.seg p.1 p.2 x = 1 := by
  unfold Radix.seg
  exact if_pos h

theorem pcs_pos {l : List Piece} {p : Piece} {x : Nat} (hp : p ∈ l) (h : p.Has x) : 0 < pcs l x := by
  have h1 := le_sum_of (f := fun p : Piece => Radix.seg p.1 p.2 x) hp
  have h2 := h.seg
  unfold pcs
  omega

theorem OnList.cover {st : St} {a x : Nat} (h : OnList st a x) : 0 < allocCover (fun _ => true) (st.allocs a) x := by
  obtain ⟨t, it, ht, hit, h1, h2⟩ := h
  have e1 := le_sum_of (f := fun it => segE (fun _ => true) it t x) hit
  have e2 := le_sum_of (f := fun t => listCover (fun _ => true) t x ((st.allocs a).recycler t)) (List.mem_range.2 ht)
  have e3 : segE (fun _ => true) it t x = 1 := by
    unfold segE seg
    rw [if_pos rfl, if_pos ⟨h1, h2⟩]
  have e4 : listCover (fun _ => true) t x ((st.allocs a).recycler t) = (((st.allocs a).recycler t).map fun it => segE (fun _ => true) it t x).sum := rfl
  have e5 : recCover (fun _ => true) (st.allocs a).recycler x =
      ((List.range recyclerLen).map fun t => listCover (fun _ => true) t x ((st.allocs a).recycler t)).sum := rfl
  unfold allocCover
  omega

theorem C51_reuse_waits : C51_statement := by
  intro s hr a p x hp hx
  have h := hr.inv
  have h1 := pcs_pos hp hx
  have ha : a < s.st.nalloc := by
    by_cases ha : a < s.st.nalloc
    · exact ha
    · rw [(h.off a (by omega)).2.1] at hp; cases hp
  have hown : ∀ b, pcs (s.own b) x = pcs (s.priv b) x + pcs (s.owed b) x + pcs (s.ph b).item x := by
    intro b
    unfold ESys.own
    rw [pcs_append, pcs_append]
  have h2 := own_le ha x
  have h3 := h.sep x
  have ho := hown a
  have hother : ∀ b, b ≠ a → pcs (s.own b) x = 0 := by
    intro b hb
    by_cases hlt : b < s.st.nalloc
    · have := own_two ha hlt (Ne.symm hb) x
      omega
    · have := h.off b (by omega)
      rw [hown, this.1, this.2.1, this.2.2]
      rfl
  refine ⟨?_, ?_, ?_, ?_, ?_, ?_, ?_, ?_⟩
  · intro b q hq hqx
    have := (h.clean b x (pcs_pos hq hqx)).priv a
    omega
  · intro q hq hqx
    have := pcs_pos hq hqx
    omega
  · intro q hq hqx
    have e1 := pcs_pos hq hqx
    have e2 := pcs_perm (List.perm_cons_erase hp) x
    rw [pcs_cons, hx.seg] at e2
    omega
  · intro b q hb hq hqx
    have e1 := pcs_pos hq hqx
    have e2 := hother b hb
    rw [hown] at e2
    omega
  · intro b q hq hqx
    have e1 := pcs_pos hq hqx
    by_cases hb : b = a
    · subst hb; omega
    · have e2 := hother b hb
      rw [hown] at e2
      omega
  · intro b n slots e hb hqx
    have e1 : 0 < pcs (s.ph b).item x := by rw [hb]; exact pcs_pos (p := (n, slots)) (by simp [EPh.item]) hqx
    by_cases hba : b = a
    · subst hba; omega
    · have e2 := hother b hba
      rw [hown] at e2
      omega
  · intro b hb hl
    have e1 := hl.cover
    have e2 := allocCover_le (p := fun _ => true) hb x
    have e3 : freeCover s.st x = freeP (fun _ => true) s.st x := rfl
    omega
  · by_cases hlt : x < s.st.baNext * blockSlots
    · exact hlt
    · have e3 : freeCover s.st x = freeP (fun _ => true) s.st x := rfl
      rw [freeP_eq, if_pos (by omega)] at e3
      omega

/-- If nobody interferes, the separate accesses are what `Verif/Model/Alloc.lean` does in one step. -/
theorem C51_pieces (st : St) (a slots n : Nat) :
    st.newNode a slots = st.newNodeWith a slots (st.scanned st.nalloc) ∧
    st.recycle a n slots = (if slots > recyclerLen then .ok st
      else (st.recyclePush a n slots st.epoch).bind fun r => if r.1 then .ok (r.2.recycleBump a) else .ok r.2) :=
  ⟨by rw [scanned_min]; exact newNode_with st a slots, recycle_split st a n slots⟩

/-! ## An execution -/

def etrace : List EAct → ESys → Option ESys
  | [], s => some s
  | act :: acts, s =>
    if act.who.all (fun a => decide (a < s.st.nalloc)) then
      match eexec s act with
      | some (.ok s') => etrace acts s'
      | _ => none
    else none

theorem ERun.trace : ∀ {acts : List EAct} {s s' : ESys}, ERun s → etrace acts s = some s' → ERun s'
  | [], _, _, h, ht => by cases ht; exact h
  | act :: acts, s, s', h, ht => by
    unfold etrace at ht
    split at ht
    · rename_i hw
      split at ht
      · rename_i he
        refine ERun.trace (.step h ?_ he) ht
        intro a ha
        rw [ha] at hw
        simpa using hw
      · cases ht
    · cases ht

/-- Allocator 0 publishes a node of 4 slots.  Allocator 1 begins an operation and scans the first reservation.  Allocator 0 replaces its node by another and
begins to recycle it, while allocator 1 is given a node: both operations may still read the node replaced. -/
def epochDemo : List EAct :=
  [.load 0, .store 0, .scan 0, .look 0, .look 0, .take 0 4, .swap 0 [] [], .load 1, .store 1, .scan 1, .look 1,
   .scan 0, .look 0, .look 0, .take 0 5, .swap 0 [(1, 4)] [], .fetch 0, .look 1, .take 1 3, .push 0]

example : ∃ s, ERun s ∧ (∃ p, p ∈ s.priv 1) ∧ (∃ q, q ∈ s.known 1 ∧ q ∉ s.tree) ∧ (∃ x, OnList s.st 0 x) := by
  have h : (etrace epochDemo (ESys.new 2)).any (fun s => decide (s.priv 1 = [(262144, 3)]) && decide ((1, 4) ∈ s.known 1) && decide ((1, 4) ∉ s.tree) &&
      decide (((s.st.allocs 0).recycler 4).map (fun it => (it.n, it.e)) = [(1, 0)])) = true := by decide +kernel
  cases ht : etrace epochDemo (ESys.new 2) with
  | none => rw [ht] at h; cases h
  | some s =>
    rw [ht] at h
    simp only [Option.any_some, Bool.and_eq_true, decide_eq_true_eq] at h
    obtain ⟨⟨⟨h1, h2⟩, h3⟩, h4⟩ := h
    refine ⟨s, (ERun.init 2).trace ht, ⟨_, by rw [h1]; exact List.mem_singleton_self _⟩, ⟨_, h2, h3⟩, ?_⟩
    obtain ⟨it, hit, _⟩ := List.mem_map.1 (by rw [h4]; exact List.mem_singleton_self _ : (1, 0) ∈ ((s.st.allocs 0).recycler 4).map fun it => (it.n, it.e))
    exact ⟨it.n, 4, it, by decide, hit, Nat.le_refl _, by omega⟩

end Radix
