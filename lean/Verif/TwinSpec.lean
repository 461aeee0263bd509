import Verif.Ppm.NearSpec

/-! # Answers of a model with rounding and of the same model without -/

namespace Mozolm

/-- the number `x` is the number `y ≥ 0` within the factor `exp e`, or a flag was raised (only if `φ`) -/
def NumTwin (φ : Prop) (e : ℝ) (x y : XR) : Prop := ∃ p : ℝ, 0 ≤ p ∧ y = .fin p ∧ ValueNear φ e x p

/-- Scores with rounding and without: the same symbols in the same order, probabilities within the factor `exp d`, normalizations within
the factor `exp n`. -/
structure ScoresTwin (φ : Prop) (d n : ℝ) (r r' : LMScores XR) : Prop where
  symbols : r.symbols = r'.symbols
  probs : Pointwise (NumTwin φ d) r.probs r'.probs
  norm : NumTwin φ n r.norm r'.norm

/-- Two computations that fail alike or give corresponding results. -/
inductive Both {α β : Type} (Q : α → β → Prop) : Except Fault α → Except Fault β → Prop
  | ok {a b} : Q a b → Both Q (.ok a) (.ok b)
  | error (f : Fault) : Both Q (.error f) (.error f)

end Mozolm
