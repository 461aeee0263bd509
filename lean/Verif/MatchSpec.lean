import Verif.TwinSpec

/-! # Answers with rounding and without, where the answer without may be undefined -/

namespace Mozolm

/-- the cost `c` is the cost `c'` within `e`, or a flag was raised (only if `φ`), or `c'` is undefined -/
def CostMatch (φ : Prop) (e : ℝ) (c c' : XR) : Prop := c' = .nan ∨ Ppm.CostTwin φ e c c'

/-- the number `x` is the number `y` within the factor `exp e`, or a flag was raised (only if `φ`), or `y` is undefined -/
def NumMatch (φ : Prop) (e : ℝ) (x y : XR) : Prop := y = .nan ∨ NumTwin φ e x y

/-- Scores with rounding and without: the same symbols in the same order; every probability that is defined without rounding is the same within the factor
`exp d`, and so is the normalization within `exp n`. -/
structure ScoresMatch (φ : Prop) (d n : ℝ) (r r' : LMScores XR) : Prop where
  symbols : r.symbols = r'.symbols
  probs : Pointwise (NumMatch φ d) r.probs r'.probs
  norm : NumMatch φ n r.norm r'.norm

end Mozolm
