import Verif.Word.Spec

/-! # The order of strings and common prefixes -/

namespace Mozolm.Word

theorem strLe_iff (a b : Str) : strLe a b = true ↔ a ≤ b := by
  induction a generalizing b with
  | nil => simp [strLe]
  | cons x a ih =>
    cases b with
    | nil => simp [strLe]
    | cons y b =>
      rw [List.cons_le_cons_iff]
      simp only [strLe]
      by_cases h : x < y
      · rw [if_pos h]; simp [h]
      · rw [if_neg h]
        by_cases h' : y < x
        · rw [if_pos h']
          have : ¬ x = y := by omega
          simp [h, this]
        · rw [if_neg h', ih]
          have : x = y := by omega
          simp [this]

theorem strLe_trans (a b c : Str) (h : strLe a b = true) (h' : strLe b c = true) : strLe a c = true := by
  rw [strLe_iff] at *
  exact List.le_trans h h'

theorem strLe_total (a b : Str) : (strLe a b || strLe b a) = true := by
  rw [Bool.or_eq_true, strLe_iff, strLe_iff]
  exact List.le_total a b

theorem insertStr_perm (w : Str) (l : List Str) : (insertStr w l).Perm (w :: l) := by
  induction l with
  | nil => exact .refl _
  | cons v vs ih =>
    simp only [insertStr]
    split
    · exact .refl _
    · exact (ih.cons v).trans (.swap w v vs)

theorem insertStr_sorted (w : Str) {l : List Str} (h : l.Pairwise (fun a b => strLe a b = true)) :
    (insertStr w l).Pairwise (fun a b => strLe a b = true) := by
  induction l with
  | nil => simp [insertStr]
  | cons v vs ih =>
    rw [List.pairwise_cons] at h
    simp only [insertStr]
    split
    · rename_i hle
      rw [List.pairwise_cons, List.pairwise_cons]
      refine ⟨?_, h⟩
      intro x hx
      rcases List.mem_cons.1 hx with rfl | hx
      · exact hle
      · exact strLe_trans _ _ _ hle (h.1 x hx)
    · rename_i hle
      have hvw : strLe v w = true := by
        have := strLe_total w v
        simpa [hle] using this
      rw [List.pairwise_cons]
      refine ⟨?_, ih h.2⟩
      intro x hx
      rcases List.mem_cons.1 ((insertStr_perm w vs).mem_iff.1 hx) with rfl | hx
      · exact hvw
      · exact h.1 x hx

theorem sortStr_perm (l : List Str) : (sortStr l).Perm l := by
  induction l with
  | nil => exact .refl _
  | cons w l ih => exact (insertStr_perm w _).trans (ih.cons w)

theorem sortStr_sorted (l : List Str) : (sortStr l).Pairwise (fun a b => strLe a b = true) := by
  induction l with
  | nil => exact .nil
  | cons w l ih => exact insertStr_sorted w ih

/-- Words with a common prefix are contiguous. -/
theorem prefix_convex {p a b c : Str} (h1 : a < b) (h2 : b < c) (ha : p <+: a) (hc : p <+: c) :
    p <+: b := by
  induction p generalizing a b c with
  | nil => exact List.nil_prefix
  | cons x p ih =>
    obtain ⟨a', rfl⟩ := ha
    obtain ⟨c', rfl⟩ := hc
    cases b with
    | nil => simp at h1
    | cons y b =>
      simp only [List.cons_append, List.cons_lt_cons_iff] at h1 h2
      have hxy : x = y := by omega
      subst hxy
      simp only [Nat.lt_irrefl, true_and, false_or] at h1 h2
      rw [List.prefix_cons_iff]
      exact .inr ⟨p, rfl, ih h1 h2 ⟨a', rfl⟩ ⟨c', rfl⟩⟩

/-- When the first characters in common exceed `k`. -/
theorem lt_prefixMatch (u v : Str) (k : Nat) :
    k < prefixMatch (strSplitByChar u) (strSplitByChar v) ↔
      k < u.length ∧ k < v.length ∧ u.take (k + 1) = v.take (k + 1) := by
  induction u generalizing v k with
  | nil => simp [strSplitByChar, prefixMatch]
  | cons x u ih =>
    cases v with
    | nil => simp [strSplitByChar, prefixMatch]
    | cons y v =>
      have hc : ∀ z (w : Str), strSplitByChar (z :: w) = [z] :: strSplitByChar w := fun _ _ => rfl
      simp only [hc, prefixMatch, List.cons.injEq, and_true]
      by_cases h : x = y
      · rw [if_pos h]
        cases k with
        | zero => simp [h]
        | succ k =>
          have := ih v k
          simp only [List.length_cons, List.take_succ_cons, List.cons.injEq, h, true_and,
            Nat.add_lt_add_iff_right]
          exact this
      · rw [if_neg h]
        simp [h]

/-- Of two different words with a common prefix of length `k`: the common prefix is longer exactly when
they have the same next character. -/
theorem lt_prefixMatch_iff {u v p : Str} (hu : p <+: u) (hv : p <+: v) (hne : u ≠ v) :
    p.length < prefixMatch (strSplitByChar u) (strSplitByChar v) ↔ u[p.length]? = v[p.length]? := by
  rw [lt_prefixMatch]
  obtain ⟨u, rfl⟩ := hu
  obtain ⟨v, rfl⟩ := hv
  rw [List.getElem?_append_right (Nat.le_refl _), List.getElem?_append_right (Nat.le_refl _)]
  cases u with
  | nil =>
    cases v with
    | nil => exact absurd rfl hne
    | cons y v => simp
  | cons x u =>
    cases v with
    | nil => simp
    | cons y v =>
      simp only [List.length_append, List.length_cons, Nat.sub_self, List.getElem?_cons_zero,
        Option.some.injEq, List.take_append]
      have : p.length + 1 - p.length = 1 := by omega
      simp only [this, List.take_succ_cons, List.take_zero, List.append_cancel_left_eq,
        List.cons.injEq, and_true]
      constructor
      · exact fun h => h.2.2
      · exact fun h => ⟨by omega, by omega, h⟩

/-- Extending a prefix by the next character. -/
theorem prefix_snoc_iff {p u : Str} {c : Nat} : p ++ [c] <+: u ↔ p <+: u ∧ u[p.length]? = some c := by
  constructor
  · rintro ⟨v, rfl⟩
    refine ⟨⟨[c] ++ v, by simp⟩, by simp⟩
  · rintro ⟨⟨v, rfl⟩, h⟩
    rw [List.getElem?_append_right (Nat.le_refl _)] at h
    cases v with
    | nil => simp at h
    | cons x v =>
      simp only [Nat.sub_self, List.getElem?_cons_zero, Option.some.injEq] at h
      subst h
      exact ⟨v, by simp⟩

theorem prefix_end_iff {p u : Str} : p <+: u ∧ u[p.length]? = none ↔ u = p := by
  constructor
  · rintro ⟨⟨v, rfl⟩, h⟩
    cases v with
    | nil => simp
    | cons x v => simp at h
  · rintro rfl; simp

/-- Sorted words with a common prefix: once the next character changes it never comes back. -/
theorem key_changes {p a b c : Str} (h1 : a < b) (h2 : b < c) (ha : p <+: a) (hb : p <+: b)
    (hc : p <+: c) (hne : b[p.length]? ≠ a[p.length]?) : c[p.length]? ≠ a[p.length]? := by
  intro h
  cases hk : a[p.length]? with
  | none =>
    have e1 := prefix_end_iff.1 ⟨ha, hk⟩
    have e2 := prefix_end_iff.1 ⟨hc, h.trans hk⟩
    rw [e1] at h1
    rw [e2] at h2
    exact List.lt_irrefl _ (List.lt_trans h1 h2)
  | some x =>
    have e1 := prefix_snoc_iff.2 ⟨ha, hk⟩
    have e2 := prefix_snoc_iff.2 ⟨hc, h.trans hk⟩
    have := prefix_snoc_iff.1 (prefix_convex h1 h2 e1 e2)
    exact hne (this.2.trans hk.symm)

end Mozolm.Word
