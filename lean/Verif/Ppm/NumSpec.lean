import Verif.Ppm.Spec
import Verif.XR
import Mathlib.Algebra.BigOperators.Group.Finset.Basic
import Mathlib.Algebra.Order.BigOperators.Group.Finset

/-!
# Counts, totals and probabilities as real numbers

What the header of `ppm_as_fst_model.h` says, about an automaton of counts over exact arithmetic.
-/

namespace Mozolm.Ppm
open scoped BigOperators
noncomputable section

/-- The number a cost stands for. -/
def value : XR → ℝ
  | .fin r => Real.exp (-r)
  | _ => 0

/-- `c(hy)`: how often symbol `y` (0: end of string) was observed after context `s`. -/
def cnt (f : Fst XR) (s : Nat) (y : Nat) : ℝ :=
  match count Arith.xr f s y with
  | none => 0
  | some w => value w

/-- `S(h)`: the observations after context `s`, over the symbols `0..V`. -/
def total (f : Fst XR) (V s : Nat) : ℝ := ∑ y ∈ Finset.range (V + 1), cnt f s y

/-- `U(h)`: how many different symbols were observed after context `s`. -/
def distinct (f : Fst XR) (V s : Nat) : ℕ :=
  ((Finset.range (V + 1)).filter fun y => (count Arith.xr f s (y : Nat)).isSome = true).card

/-- `P(y | h)`, ppm_as_fst_model.h:35-43: relative frequency at the empty context (the counts there
include the one added to each), the probability given the shorter context where nothing was observed,
and otherwise the blended formula. -/
inductive Prob (f : Fst XR) (alpha beta : ℝ) (V : Nat) (y : Nat) : Nat → ℝ → Prop
  | unigram {s} : backoff f s = none → Prob f alpha beta V y s (cnt f s y / total f V s)
  | unseen {s b p} : backoff f s = some b → total f V s = 0 → Prob f alpha beta V y b p →
      Prob f alpha beta V y s p
  | seen {s b p} : backoff f s = some b → 0 < total f V s → Prob f alpha beta V y b p →
      Prob f alpha beta V y s
        ((max (cnt f s y - beta) 0 + (distinct f V s * beta + alpha) * p) / (total f V s + alpha))

/-- The normalisation reported with the scores: `S(h) + alpha` of the longest context with
observations. -/
inductive Norm (f : Fst XR) (alpha : ℝ) (V : Nat) : Nat → ℝ → Prop
  | unigram {s} : backoff f s = none → Norm f alpha V s (total f V s + alpha)
  | unseen {s b n} : backoff f s = some b → total f V s = 0 → Norm f alpha V b n → Norm f alpha V s n
  | seen {s b} : backoff f s = some b → 0 < total f V s → Norm f alpha V s (total f V s + alpha)

/-- Costs of possible counts: at least one. -/
def OkR (c : XR) : Prop := ∃ r : ℝ, 1 ≤ r ∧ c = XR.costOf r

/-- The total stored on the backoff arc of a context is that of its counts; one where there are none. -/
def Totals (f : Fst XR) (V : Nat) : Prop :=
  ∀ s b, backoff f s = some b →
    (total f V s = 0 → storedTotal f s = some (XR.costOf 1)) ∧
    (0 < total f V s → storedTotal f s = some (XR.costOf (total f V s)))

end
end Mozolm.Ppm
