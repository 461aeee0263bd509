import Verif.Hub.Spec
import Mathlib.Data.Real.Basic

/-! # Specification of mixing, over plain real numbers -/

namespace Mozolm.Hub

/-- A component's share in a mixture: its weight and its (symbol, probability) entries. -/
abbrev Share := ℝ × List (Str × ℝ)

/-- The weighted sum over components of the probability they give to `sym` (zero if absent). -/
noncomputable def mass (rs : List Share) (sym : Str) : ℝ :=
  (rs.map fun r => r.1 * ((r.2.filter fun e => e.1 = sym).map Prod.snd).sum).sum

/-- The weighted sum over components of all their probabilities. -/
noncomputable def total (rs : List Share) : ℝ := (rs.map fun r => r.1 * (r.2.map Prod.snd).sum).sum

end Mozolm.Hub
