import Verif.Scores.Spec
import Verif.Scores.Numeric
import Mathlib.Order.Basic

/-! # Property theorems about language_model.cc (C44, C45) -/

namespace Mozolm.Scores
open XR

section Top
variable {D : Type} [LinearOrder D] {sort : List (D × Str) → List (D × Str)}

/-- C44, negative or zero `top_n`: all entries, most likely first. -/
theorem C44_all (hs : SortsBy likelier sort) {scores : LMScores D}
    (hlen : scores.probs.length = scores.symbols.length) (hne : scores.probs ≠ []) {topN : Int}
    (hn : topN ≤ 0) :
    ∃ hyps, getTopHypotheses sort scores topN = .ok hyps ∧
      MostLikely scores.probs.length (scores.probs.zip scores.symbols) hyps := by
  have h0 : scores.probs.length ≠ 0 := by simpa using hne
  obtain ⟨hp, hw⟩ := hs (scores.probs.zip scores.symbols)
  refine ⟨sort (scores.probs.zip scores.symbols), ?_, ?_, ?_, [], ?_, by simp⟩
  · unfold getTopHypotheses
    simp only
    rw [if_neg (by simp [hlen]), if_neg (by omega), if_neg h0, if_neg (by omega)]
  · rw [hp.length_eq, List.length_zip]; omega
  · exact hw.imp fun h => by simpa [likelier] using h
  · simpa using hp

/-- C44, `0 < top_n < number of entries`: the `top_n` most likely entries, most likely first. -/
theorem C44_top_n (hs : SortsBy likelier sort) {scores : LMScores D}
    (hlen : scores.probs.length = scores.symbols.length) {topN : Int}
    (h0 : 0 < topN) (hn : topN < scores.probs.length) :
    ∃ hyps, getTopHypotheses sort scores topN = .ok hyps ∧
      MostLikely topN.toNat (scores.probs.zip scores.symbols) hyps := by
  obtain ⟨hp, hw⟩ := hs (scores.probs.zip scores.symbols)
  have hw' : (sort (scores.probs.zip scores.symbols)).Pairwise (fun a b => b.1 ≤ a.1) :=
    hw.imp fun h => by simpa [likelier] using h
  have hsl : (sort (scores.probs.zip scores.symbols)).length = scores.probs.length := by
    rw [hp.length_eq, List.length_zip]; omega
  refine ⟨(sort (scores.probs.zip scores.symbols)).take topN.toNat, ?_, ?_, ?_,
    (sort (scores.probs.zip scores.symbols)).drop topN.toNat, ?_, ?_⟩
  · unfold getTopHypotheses
    simp only
    rw [if_neg (by simp [hlen]), if_neg (by omega), if_neg (by omega), if_pos (by omega)]
  · rw [List.length_take]; omega
  · exact hw'.sublist (List.take_sublist _ _)
  · rw [List.take_append_drop]; exact hp
  · rw [← List.take_append_drop topN.toNat (sort (scores.probs.zip scores.symbols)),
      List.pairwise_append] at hw'
    exact hw'.2.2

/-- C44: `top_n` equal to or above the number of entries is refused. -/
theorem C44_equal_refused (scores : LMScores D)
    (hlen : scores.probs.length = scores.symbols.length) {topN : Int}
    (hn : (scores.probs.length : Int) ≤ topN) :
    getTopHypotheses sort scores topN = .tooMany := by
  unfold getTopHypotheses
  simp only
  rw [if_neg (by simp [hlen]), if_pos hn]

/-- C44 fails for `top_n = 0`: every entry is returned instead of none. -/
theorem C44_zero_false (hs : SortsBy likelier sort) {scores : LMScores D}
    (hlen : scores.probs.length = scores.symbols.length) (hne : scores.probs ≠ []) :
    ∃ hyps, getTopHypotheses sort scores 0 = .ok hyps ∧
      ¬ MostLikely 0 (scores.probs.zip scores.symbols) hyps := by
  have h0 : scores.probs.length ≠ 0 := by simpa using hne
  obtain ⟨hp, _⟩ := hs (scores.probs.zip scores.symbols)
  refine ⟨sort (scores.probs.zip scores.symbols), ?_, ?_⟩
  · unfold getTopHypotheses
    simp only
    rw [if_neg (by simp [hlen]), if_neg (by omega), if_neg h0, if_neg (by omega)]
  · rintro ⟨h, _⟩
    rw [hp.length_eq, List.length_zip] at h
    omega

/-- C44: a malformed or empty response is refused. -/
theorem C44_bad_response (scores : LMScores D) (topN : Int)
    (h : scores.probs.length ≠ scores.symbols.length ∨ scores.probs = []) :
    ∀ hyps, getTopHypotheses sort scores topN ≠ .ok hyps := by
  intro hyps
  unfold getTopHypotheses
  simp only
  rcases h with h | h
  · rw [if_pos h]; simp
  · split
    · simp
    · split
      · simp
      · rw [if_pos (by simp [h])]; simp

/-- the hypotheses of C44 hold for a concrete response and insertion sort -/
example : SortsBy (likelier (D := Nat)) (fun l => l.mergeSort fun a b => decide (b.1 ≤ a.1)) := by
  intro l
  refine ⟨List.mergeSort_perm _ _, ?_⟩
  have := List.pairwise_mergeSort (le := fun a b : Nat × Str => decide (b.1 ≤ a.1))
    (by simp only [decide_eq_true_eq]; intro a b c h1 h2; omega)
    (by simp only [Bool.or_eq_true, decide_eq_true_eq]; intro a b; omega) l
  exact this.imp fun h => by simpa [likelier] using h

end Top

/-- C45: `SoftmaxRenormalize` turns costs of numbers `p₁,…,pₙ` (not all zero) into the costs of
`p₁/Σ, …, pₙ/Σ`; these sum to one. -/
theorem C45_softmax {ps : List ℝ} (hp : ∀ p ∈ ps, 0 ≤ p) (hs : 0 < ps.sum) :
    softmaxRenormalize Arith.xr (ps.map costOf) = .ok (ps.map fun p => costOf (p / ps.sum)) ∧
      (ps.map fun p => p / ps.sum).sum = 1 :=
  ⟨softmax_costOf hp hs, by rw [sum_map_div, div_self hs.ne']⟩

/-- C45: when every cost is `+inf` every result is `NaN`. -/
theorem C45_all_infinite {n : Nat} :
    softmaxRenormalize Arith.xr (List.replicate (n + 1) XR.pinf) =
      .ok (List.replicate (n + 1) XR.nan) := by
  have h : ∀ m, negLogSumFrom Arith.xr XR.pinf (List.replicate m XR.pinf) = XR.pinf := by
    intro m
    induction m with
    | zero => rfl
    | succ m ih => exact ih
  simp only [List.replicate_succ, softmaxRenormalize]
  rw [h]
  simp only [List.map_cons, List.map_replicate]
  rfl

/-- C45: the empty vector is undefined behaviour. -/
theorem C45_empty_ub (A : Arith) : softmaxRenormalize A [] = .error .ub := rfl

example : ∃ ps : List ℝ, (∀ p ∈ ps, 0 ≤ p) ∧ 0 < ps.sum ∧ ps.length = 3 :=
  ⟨[1, 0, 2], by simp, by norm_num, rfl⟩

end Mozolm.Scores
