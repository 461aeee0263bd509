import Verif.Props.PpmAccuracy
import Verif.NGram.AccuracySpec
import Verif.Props.System

/-! # Two servers side by side, one with rounding: components -/

namespace Mozolm.System
open Real

/-- What the two servers are given as one of their components, with rounding and without: the same bigram model; the same character n-gram model, whose
weights are costs and whose backoff leads from no state further than `j` steps; or the PPM models read from corresponding sources (`Ppm.Given`), where
`T` bounds the observations after any context, those of `N` lessons included. The error of costs and probabilities is then at most `d`, that of
normalizations at most `n`, and at most `V` symbols are listed. -/
inductive Mates {φ : Prop} {ε δ : ℝ} (F : Rounding φ ε δ) (hε : 0 ≤ ε) (d n : ℝ) (V N : Nat) : Component F.arith → Component Arith.xr → Prop
  | bigram {v c : Bigram.FileArg} {m : Bigram.Model} : Bigram.read v c = .ok (some m) → 3 * slack δ + ε ≤ d → slack δ ≤ n → m.utf8.length ≤ V →
      Mates F hε d n V N (.bigram m) (.bigram m)
  | char {src : NGram.Source XR} {m : NGram.Model XR} {j : Nat} : NGram.read Arith.xr src = .ok (some m) → NGram.Closed m.fst → NGram.Acyclic m.fst →
      NGram.Weighted m.fst → NGram.Deep m.fst j → NGram.shareError ε δ j (m.symbols.tail.length + 1) ≤ d → slack δ ≤ n → m.symbols.tail.length + 1 ≤ V →
      Mates F hε d n V N (.char m) (.char m)
  | ppm {a b T K : ℝ} {hb : 0 < b} {hb1 : b * exp (2 * ε) < 1} {o : Ppm.Options XR} {srcF : Ppm.Source F.arith.C} {src : Ppm.Source Arith.xr.C}
      {vocab : Option (List (List Str))} {mF : Ppm.Model F.arith} {m : Ppm.Model Arith.xr} : 0 < a → (Ppm.initParameters F.arith o).alpha = .fin a →
      (Ppm.initParameters F.arith o).beta = .fin b → (Ppm.initParameters Arith.xr o).alpha = .fin a → (Ppm.initParameters Arith.xr o).beta = .fin b →
      Ppm.Given F hε hb hb1 srcF src vocab → Ppm.read F.arith o srcF (vocab.map some) = pure mF → Ppm.read Arith.xr o src (vocab.map some) = pure m →
      (∀ s < m.core.fst.states.length, Ppm.total m.core.fst m.chars s + N ≤ T) → 0 ≤ K → b * exp ((T + 1) * ε) * (K + 1) ≤ K →
      Ppm.scoreError ε δ T K m.chars (m.core.maxOrder - 1).toNat + slack δ ≤ d → (T + m.chars + 1) * ε + slack δ ≤ n → m.chars + 1 ≤ V →
      Mates F hε d n V N (.ppm mF) (.ppm m)

end Mozolm.System
