import Verif.Hub.Spec

/-! # Hub: the sort in `ExtractMixture` -/

namespace Mozolm.Hub

theorem sortValues_perm {C : Type} (l : List (Str × C)) : (sortValues l).Perm l :=
  List.mergeSort_perm _ _

theorem byteLt_of_le_of_ne {a b : Str} (h : a ≤ b) (hne : a ≠ b) : byteLt a b := by
  unfold byteLt
  by_cases h1 : a < b
  · exact h1
  · exact absurd (List.le_antisymm h (List.not_lt.1 h1)) hne

theorem byteLt_irrefl (a : Str) : ¬ byteLt a a := List.lt_irrefl a

/-- with distinct keys the result is strictly increasing in the key -/
theorem sortValues_sorted {C : Type} (l : List (Str × C)) (hn : (l.map Prod.fst).Nodup) :
    (sortValues l).Pairwise fun a b => byteLt a.1 b.1 := by
  have h := List.pairwise_mergeSort (le := fun a b : Str × C => decide (a.1 ≤ b.1))
    (by simp only [decide_eq_true_eq]; intro a b c h1 h2; exact List.le_trans h1 h2)
    (by simp only [Bool.or_eq_true, decide_eq_true_eq]; intro a b; exact List.le_total _ _) l
  have hn' : ((sortValues l).map Prod.fst).Nodup := ((sortValues_perm l).map _).nodup_iff.2 hn
  rw [List.Nodup, List.pairwise_map] at hn'
  have h2 : (sortValues l).Pairwise fun a b => decide (a.1 ≤ b.1) = true := h
  refine (h2.and hn').imp ?_
  rintro a b ⟨h1, h2⟩
  exact byteLt_of_le_of_ne (by simpa using h1) h2

end Mozolm.Hub
