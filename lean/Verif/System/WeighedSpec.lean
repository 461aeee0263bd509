import Verif.System.OfferedSpec

/-!
# How probable a text should be that is generated with a server whose models do not learn

From the replies of a freshly started server to whole texts alone.
-/

namespace Mozolm.System
open Mozolm.Hub Mozolm.Server
variable {σ : Type}

/-- The freshly started server `h0` replies `r` to the text. -/
def Replies (env : Env Arith.xr σ) (h0 : Hub Arith.xr σ) (text : List Int) (r : LMScores XR) : Prop :=
  ∃ h', getLMScores env h0 text 0 = .ok (.ok r, h')

/-- The probability that the symbols follow the text: each has the probability in the reply of a fresh server to all the
text before it. `text'` is the whole text. -/
inductive Weighed (env : Env Arith.xr σ) (decode : Str → List Int) (h0 : Hub Arith.xr σ) : List Int → List Str → ℝ → List Int → Prop
  | nil {text : List Int} {r : LMScores XR} : Replies env h0 text r → Proper r → Weighed env decode h0 text [] 1 text
  | cons {text text' : List Int} {r : LMScores XR} {sym : Str} {syms : List Str} {p q : ℝ} :
      Replies env h0 text r → Proper r → sym ≠ [] → Lists r sym p →
      Weighed env decode h0 (text ++ decode sym) syms q text' → Weighed env decode h0 text (sym :: syms) (p * q) text'

end Mozolm.System
