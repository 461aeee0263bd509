import Verif.Hub.Sorted

/-! # Hub: the sort in `ExtractMixture` depends on the keys only -/

namespace Mozolm.Hub

/-- sorting by a key -/
def sortBy {C : Type} (key : C → Str) (l : List C) : List C := l.mergeSort fun a b => decide (key a ≤ key b)

theorem sortBy_perm {C : Type} (key : C → Str) (l : List C) : (sortBy key l).Perm l := List.mergeSort_perm _ _

/-- sorting by keys that differ gives the same order whatever the order before -/
theorem sortBy_eq {C : Type} {l l1 l2 : List C} (key : C → Str) (hn : ∀ a ∈ l, ∀ b ∈ l, key a = key b → a = b) (h1 : l1.Perm l) (h2 : l2.Perm l) :
    sortBy key l1 = sortBy key l2 := by
  have hs : ∀ l : List C, (sortBy key l).Pairwise fun a b => decide (key a ≤ key b) = true := fun l =>
    List.pairwise_mergeSort (le := fun a b : C => decide (key a ≤ key b))
      (by simp only [decide_eq_true_eq]; intro a b c h1 h2; exact List.le_trans h1 h2)
      (by simp only [Bool.or_eq_true, decide_eq_true_eq]; intro a b; exact List.le_total _ _) l
  have p1 := (sortBy_perm key l1).trans h1
  have p2 := (sortBy_perm key l2).trans h2
  refine List.Perm.eq_of_pairwise (fun a b ha hb hab hba => ?_) (hs l1) (hs l2) (p1.trans p2.symm)
  exact hn a (p1.subset ha) b (p2.subset hb) (List.le_antisymm (by simpa using hab) (by simpa using hba))

theorem sortValues_map {C D : Type} (f : C → Str × D) (key : C → Str) (l : List C) (h : ∀ a ∈ l, (f a).1 = key a) :
    sortValues (l.map f) = (sortBy key l).map f := by
  unfold sortValues sortBy
  refine (List.map_mergeSort fun a ha b hb => ?_).symm
  rw [h a ha, h b hb]

end Mozolm.Hub
