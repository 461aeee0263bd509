import Verif.Scores.Model
import Mathlib.Order.Defs.LinearOrder

/-! # Small specification vocabulary for the score properties -/

namespace Mozolm.Scores

/-- The contract of `std::sort` with comparator `less`: a rearrangement in which no element is less
than an earlier one. -/
def SortsBy {α : Type} (less : α → α → Prop) (sort : List α → List α) : Prop :=
  ∀ l, (sort l).Perm l ∧ (sort l).Pairwise fun a b => ¬ less b a

/-- The comparator of `GetTopHypotheses`, language_model.cc:62-66: larger probability first. -/
def likelier {D : Type} [LT D] (a b : D × Str) : Prop := a.1 > b.1

/-- `hyps` lists `n` most likely entries of `all`, most likely first. -/
def MostLikely {D : Type} [LE D] (n : Nat) (all hyps : List (D × Str)) : Prop :=
  hyps.length = n ∧ hyps.Pairwise (fun a b => b.1 ≤ a.1) ∧
    ∃ rest, (hyps ++ rest).Perm all ∧ ∀ a ∈ hyps, ∀ b ∈ rest, b.1 ≤ a.1

end Mozolm.Scores
