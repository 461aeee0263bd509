import Mathlib.Data.Finset.Card
import Mathlib.Data.Real.Basic
import Mathlib.Algebra.BigOperators.Group.Finset.Basic

/-! # How probable single symbols are to a model that has learnt one text -/

namespace Mozolm.Ppm

/-- The pairs of neighbours in a text with its beginning and its end (both 0). -/
def neighbours (ys : List Int) : List (Int × Int) := (0 :: ys).zip (ys ++ [0])

/-- How many different symbols (or the beginning) come before `y` (0: the end) somewhere in the text. -/
def predecessors (ys : List Int) (y : Int) : Nat := ((neighbours ys).toFinset.filter fun p => p.2 = y).card

/-- How probable symbol `y` (0: the end) is at the beginning for a model that knew nothing and learnt the text `ys` of symbols up to
`V` once: the first symbol of the text was seen there; the others are divided by how many different symbols they follow. -/
noncomputable def firstChance (alpha beta : ℝ) (V : Nat) (ys : List Int) (y : Nat) : ℝ :=
  ((if (y : Int) = (ys ++ [0]).headD 0 then 1 - beta else 0) +
    (beta + alpha) * ((1 + predecessors ys y : ℕ) / ∑ z ∈ Finset.range (V + 1), ((1 + predecessors ys z : ℕ) : ℝ))) / (1 + alpha)

end Mozolm.Ppm
