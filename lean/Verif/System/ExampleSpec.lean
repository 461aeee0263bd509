import Verif.System.Example

/-! # What the Java example should show -/

namespace Mozolm.System
open Mozolm.Hub Mozolm.Server

/-- `a` is not smaller than `b` in the order of `Double.compare`: what is no number before all numbers, and those falling. -/
def NotSmaller (a b : XR) : Prop :=
  a = .nan ∨ (b ≠ .nan ∧ (a = .pinf ∨ b = .ninf ∨ ∃ x y : ℝ, a = .fin x ∧ b = .fin y ∧ y ≤ x))

/-- `cands` are the symbols of the reply with their probabilities, the more probable first, those equally probable in the order of
the reply. -/
structure Ranked (r : LMScores XR) (cands : List (XR × Str)) : Prop where
  all : cands.Perm (r.probs.zip r.symbols)
  sizes : r.probs.length = r.symbols.length
  falling : cands.Pairwise fun a b => NotSmaller a.1 b.1
  stable : ∀ p : XR, ∀ [DecidableEq XR], cands.filter (fun c => c.1 == p) = (r.probs.zip r.symbols).filter (fun c => c.1 == p)

end Mozolm.System
