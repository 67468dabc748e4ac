import Verif.Model.Sys
/-!
# `Finalize`: building the new nodes, then publishing the change
-/
set_option autoImplicit false
namespace Radix

theorem bindCongr {α β : Type} (x : Res α) {f g : α → Res β} (h : ∀ a, f a = g a) : (x >>= f) = (x >>= g) := by
  have : f = g := funext h
  rw [this]

/-- Publishing an update is building followed by the store or compare-and-swap. -/
theorem publishU_eq (st : St) (a : Nat) (op : UpdOp) (fetched : Key) (isMatch : Bool) (value : Word) :
    publishU st a op fetched isMatch value = (do
      let (cm, st) ← buildU st a op fetched isMatch value
      return st.commit cm) := by
  unfold publishU buildU
  cases op.kind
  case replaceEmptyRootWithLeaf =>
    simp only [pure_bind, St.commit, St.cas]
    split <;> rfl
  all_goals (simp only [bind_assoc, pure_bind]; try split)
  all_goals (try simp only [bind_assoc, pure_bind])
  all_goals repeat first | (refine bindCongr _ fun x => ?_) | (obtain ⟨_, _, _⟩ := x; dsimp only)
  all_goals (try simp only [bind_assoc, pure_bind])
  all_goals repeat first | (refine bindCongr _ fun x => ?_) | (obtain ⟨_, _, _⟩ := x; dsimp only)
  all_goals (try simp only [St.commit, St.cas])
  all_goals first | rfl | (split <;> rfl)

/-- Publishing a delete is building followed by the store or compare-and-swap. -/
theorem publishD_eq (st : St) (a : Nat) (op : DelOp) (h : op.kind ≠ .notFound) :
    publishD st a op = (do
      let (cm, st) ← buildD st a op
      return st.commit cm) := by
  unfold publishD buildD
  cases hk : op.kind
  case notFound => exact absurd hk h
  all_goals (simp only [bind_assoc, pure_bind])
  all_goals repeat first | (refine bindCongr _ fun x => ?_) | (obtain ⟨_, _, _⟩ := x; dsimp only)
  all_goals (try simp only [St.commit, St.cas])
  all_goals first | rfl | (split <;> rfl)

end Radix
