import Verif.Rounding

/-! # Specification of replies with rounding -/

namespace Mozolm

/-- These are numbers, none is negative, and their sum is one within the factor `exp E`. -/
def OneWithin (E : ℝ) (probs : List XR) : Prop :=
  ∃ ys : List ℝ, probs = ys.map XR.fin ∧ (∀ y ∈ ys, 0 ≤ y) ∧ Real.exp (-E) ≤ ys.sum ∧ ys.sum ≤ Real.exp E

/-- A possible count with rounding: at least one; or a flag was raised. -/
def CountNear (c : XR) : Prop := c = .nan ∨ ∃ x : ℝ, c = .fin x ∧ x ≤ 0

end Mozolm
