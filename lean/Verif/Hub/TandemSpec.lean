import Verif.MatchSpec
import Verif.Hub.Model

/-! # Two hubs side by side, one with rounding: errors -/

namespace Mozolm.Hub

/-- What the components with rounding and without have in common: `R k` relates components that were taught `k` times. As long as that is at most `N`
times, costs agree within `d`, probabilities within `exp d`, normalizations within `exp n`; at most `V` symbols are listed. -/
structure LMOps.Pair {φ : Prop} {ε δ : ℝ} (F : Rounding φ ε δ) {σ τ : Type} (ops : LMOps F.arith σ) (ops' : LMOps Arith.xr τ) (R : Nat → σ → τ → Prop)
    (d n : ℝ) (V N : Nat) : Prop where
  mono : ∀ j k m m', R j m m' → j ≤ k → R k m m'
  start : ∀ k m m', R k m m' → ops.start m = ops'.start m'
  next : ∀ k m m' s c, R k m m' → (ops.next m s c).1 = (ops'.next m' s c).1 ∧ R k (ops.next m s c).2 (ops'.next m' s c).2
  extract : ∀ k m m' s, R k m m' → k ≤ N → R k (ops.extract m s).2 (ops'.extract m' s).2 ∧
    (((ops.extract m s).1 = none ∧ (ops'.extract m' s).1 = none) ∨ ∃ r r' : LMScores XR, (ops.extract m s).1 = some r ∧
      (ops'.extract m' s).1 = some r' ∧ ScoresMatch φ d n r r' ∧ r.probs.length ≤ V)
  score : ∀ k m m' s c, R k m m' → k ≤ N → R k (ops.symScore m s c).2 (ops'.symScore m' s c).2 ∧
    CostMatch φ d (ops.symScore m s c).1 (ops'.symScore m' s c).1
  update : ∀ k m m' s cs count, R k m m' → (ops.update m s cs count).1 = (ops'.update m' s cs count).1 ∧
    R (k + cs.length * count.toNat) (ops.update m s cs count).2 (ops'.update m' s cs count).2

/-- The error of a mixture weight: `n` weights, a history of length `L` of costs each with error `d`. -/
noncomputable def weightError (ε d : ℝ) (n L : Nat) : ℝ := 2 * (n * ε + L * (d + ε) + ε) + n * ε

/-- The error of a mixed probability: `n` components that list up to `V` symbols each, with errors `d`, and weights with errors `w`. -/
noncomputable def mixError (ε δ d w : ℝ) (n V : Nat) : ℝ := 2 * (d + w + 2 * ε + (n * V : Nat) * ε) + (n * V : Nat) * ε + slack δ

/-- The error of a mixed normalization: `m` is that of the components. -/
noncomputable def normError (δ m w : ℝ) (n : Nat) : ℝ := m + w + 2 * slack δ + (n + 1) * slack δ

end Mozolm.Hub
