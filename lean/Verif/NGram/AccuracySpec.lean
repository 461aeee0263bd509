import Verif.NGram.Spec
import Verif.TwinSpec

/-! # Accuracy of the character n-gram model: what is assumed of the automaton -/

namespace Mozolm.NGram

/-- From no state can one back off more than `n` times. -/
def Deep (f : Fst XR) (n : Nat) : Prop := ∀ s ws t, Walk f s ws t → ws.length ≤ n

/-- At every state the string may end: every backoff weight is finite, and so is the final weight of every state without backoff. -/
def Ends (f : Fst XR) : Prop :=
  (∀ s w t, IsBackoff f s w t → ∃ x, w = .fin x) ∧
  ∀ (s : Nat) st, f.states[s]? = some st → (∀ w t, ¬ IsBackoff f s w t) → ∃ x, st.final = .fin x

/-- The error of the cost of a symbol when one can back off `n` times. -/
noncomputable def symbolError (ε : ℝ) (n : Nat) : ℝ := (n + 1) * ε

/-- The error of the logarithm of a probability when there are `K` symbols with the end of string. -/
noncomputable def shareError (ε δ : ℝ) (n K : Nat) : ℝ := 2 * symbolError ε n + K * ε + slack δ

end Mozolm.NGram
