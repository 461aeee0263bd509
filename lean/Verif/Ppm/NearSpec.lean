import Verif.Rounding
import Verif.Ppm.Ops

/-! # Answers of the PPM model with rounding -/

namespace Mozolm.Ppm

/-- How many observations a call may make. -/
def Op.amount : Op → Nat
  | .update _ syms count => syms.length * count.toNat
  | .logProbs syms => syms.length
  | _ => 0

/-- How many observations calls may make. -/
def observations (ops : List Op) : Nat := (ops.map Op.amount).sum

/-- The error that a context adds to that of its shorter contexts: `T` bounds the observations after a context, `V` is the
number of characters, `K` says how far `beta` is below one. -/
noncomputable def stepError (ε δ T K : ℝ) (V : Nat) : ℝ := 2 * ((2 + K) * T * ε + (6 + K) * ε + slack δ) + (2 * V + 6) * ε

/-- The error of the cost of a symbol after a context of length `n`. -/
noncomputable def scoreError (ε δ T K : ℝ) (V n : Nat) : ℝ := (2 * T + V + 3) * ε + n * stepError ε δ T K V

/-- the cost `c` is the cost `c'` within `e`, or a flag was raised (only if `φ`) -/
def CostTwin (φ : Prop) (e : ℝ) (c c' : XR) : Prop := ∃ p : ℝ, 0 ≤ p ∧ c' = XR.costOf p ∧ CostNear φ e c p

/-- the number `x` is the number `y` within the factor `exp e`, or a flag was raised (only if `φ`) -/
def NumberTwin (φ : Prop) (e : ℝ) (x y : XR) : Prop := ∃ p : ℝ, 0 < p ∧ y = .fin p ∧ ValueNear φ e x p

/-- The answer of the model with rounding and that of the model without: states and results the same, scores for the same
symbols in the same order with probabilities within `exp d` and normalization within `exp n`, costs within `e`. -/
inductive AnswerNear {ε δ : ℝ} {φ : Prop} (F : Rounding φ ε δ) (e d n : ℝ) : Answer F.arith → Answer Arith.xr → Prop
  | state (t : Int) : AnswerNear F e d n (.state t) (.state t)
  | ok (b : Bool) : AnswerNear F e d n (.ok b) (.ok b)
  | scores {r r' : LMScores XR} : r.symbols = r'.symbols → Pointwise (NumberTwin φ d) r.probs r'.probs →
      NumberTwin φ n r.norm r'.norm → AnswerNear F e d n (.scores (some r)) (.scores (some r'))
  | cost {c c' : XR} : CostTwin φ e c c' → AnswerNear F e d n (.cost c) (.cost c')
  | costs {r r' : List XR} : Pointwise (CostTwin φ e) r r' → AnswerNear F e d n (.costs (some r)) (.costs (some r'))
  | none : AnswerNear F e d n (.costs none) (.costs none)

end Mozolm.Ppm
