import Verif.Scores.Model
import Verif.XR
import Mathlib.Algebra.BigOperators.Group.List.Basic
import Mathlib.Algebra.Order.BigOperators.Group.List

/-! # Log-domain sums at exact real arithmetic -/

namespace Mozolm.Scores
open XR

theorem sum_nonneg' {l : List ℝ} (h : ∀ q ∈ l, 0 ≤ q) : 0 ≤ l.sum := List.sum_nonneg h

theorem negLogSumFrom_costOf {p : ℝ} (hp : 0 ≤ p) {l : List ℝ} (hl : ∀ q ∈ l, 0 ≤ q) :
    negLogSumFrom Arith.xr (costOf p) (l.map costOf) = costOf (p + l.sum) := by
  induction l generalizing p with
  | nil => simp [negLogSumFrom]
  | cons q l ih =>
    simp only [List.map_cons, negLogSumFrom, List.sum_cons]
    have hq : 0 ≤ q := hl q (by simp)
    rw [negLogSum_costOf hp hq, ih (by positivity) (fun x hx => hl x (by simp [hx])), add_assoc]

theorem softmax_costOf {l : List ℝ} (hl : ∀ q ∈ l, 0 ≤ q) (hs : 0 < l.sum) :
    softmaxRenormalize Arith.xr (l.map costOf) = .ok (l.map fun p => costOf (p / l.sum)) := by
  cases l with
  | nil => simp at hs
  | cons p l =>
    have hp : 0 ≤ p := hl p (by simp)
    have hl' : ∀ q ∈ l, 0 ≤ q := fun x hx => hl x (by simp [hx])
    simp only [List.map_cons, softmaxRenormalize]
    rw [negLogSumFrom_costOf hp hl']
    simp only [List.sum_cons] at hs ⊢
    congr 1
    rw [sub_costOf hp hs, List.map_map]
    congr 1
    exact List.map_congr_left fun q hq => sub_costOf (hl' q hq) hs

theorem sum_map_div (l : List ℝ) (c : ℝ) : (l.map fun p => p / c).sum = l.sum / c := by
  induction l with
  | nil => simp
  | cons a l ih => simp [ih, add_div]

end Mozolm.Scores
