import Verif.System.MemorySpec
import Verif.Props.ClientNumeric
import Mathlib.Analysis.SpecialFunctions.Log.Base

/-!
# How many bits a text should cost that is coded with a memory of contexts while it is learnt
-/

namespace Mozolm.System
open Mozolm.Ppm (Memory)

/-- The cost, in bits, of what the model gives probability `p`: a little of the uniform distribution over code points is
mixed in. -/
noncomputable def charBits (p : ℝ) : ℝ :=
  - Real.logb 2 (Client.mixEps / Client.numCodepoints + p * (1 - Client.mixEps))

/-- Coding the rest of a line after `past`: each character with its probability after the longest known context, an
unknown one with no probability; then it is learnt once after what was before. In the end the end of the string is coded,
but not learnt. How many characters were not known, how many bits it took, and the memory afterwards. -/
inductive Coded (o : Ppm.Options XR) (K V : Nat) (a : Ppm.Alphabet) : Memory → List Int → List Int → Nat → ℝ → Memory → Prop
  | stop {M : Memory} {past : List Int} {p : ℝ} :
      M.Prob (Ppm.effective o.alpha (1/2)) (Ppm.effective o.beta (3/4)) V 0 (M.longest (a.past past)) p →
      Coded o K V a M past [] 0 (charBits p) M
  | known {M M' : Memory} {past text : List Int} {c : Int} {p b : ℝ} {k : Nat} : 0 < a.typed c →
      M.Prob (Ppm.effective o.alpha (1/2)) (Ppm.effective o.beta (3/4)) V (a.typed c).toNat (M.longest (a.past past)) p →
      Coded o K V a (M.use K V a (.learn past [c] 1)) (past ++ [c]) text k b M' →
      Coded o K V a M past (c :: text) k (charBits p + b) M'
  | unknown {M M' : Memory} {past text : List Int} {c : Int} {b : ℝ} {k : Nat} : a.typed c < 0 →
      Coded o K V a (M.use K V a (.learn past [c] 1)) (past ++ [c]) text k b M' →
      Coded o K V a M past (c :: text) (k + 1) (charBits 0 + b) M'

/-- Coding a file line by line. -/
inductive CodedFile (o : Ppm.Options XR) (K V : Nat) (a : Ppm.Alphabet) : Memory → List (List Int) → Nat → ℝ → Memory → Prop
  | nil {M : Memory} : CodedFile o K V a M [] 0 0 M
  | cons {M M1 M' : Memory} {line : List Int} {lines : List (List Int)} {k k' : Nat} {b b' : ℝ} :
      Coded o K V a M [] line k b M1 → CodedFile o K V a M1 lines k' b' M' →
      CodedFile o K V a M (line :: lines) (k + k') (b + b') M'

end Mozolm.System
