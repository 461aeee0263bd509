import Verif.Word.Ranges

/-! # The tables of a model that has been read -/

namespace Mozolm.Word

theorem lcps_get : ∀ (W : List Str) (last : List Str) (i : Nat) (u v : Str), W[i]? = some u →
    W[i + 1]? = some v →
    (lcps last W)[i + 1]? = some (prefixMatch (strSplitByChar u) (strSplitByChar v) : Int) := by
  intro W
  induction W with
  | nil => intro _ i u v h; simp at h
  | cons w ws ih =>
    intro last i u v h1 h2
    cases i with
    | zero =>
      simp only [List.getElem?_cons_zero, Option.some.injEq] at h1
      subst h1
      cases ws with
      | nil => simp at h2
      | cons x ws =>
        simp only [Nat.zero_add, List.getElem?_cons_succ, List.getElem?_cons_zero,
          Option.some.injEq] at h2
        subst h2
        simp [lcps]
    | succ i =>
      simp only [List.getElem?_cons_succ] at h1 h2
      have := ih (strSplitByChar w) i u v h1 h2
      simp only [lcps, List.getElem?_cons_succ]
      exact this

theorem lcps_length (W : List Str) (last : List Str) : (lcps last W).length = W.length := by
  induction W generalizing last with
  | nil => rfl
  | cons w ws ih => simp [lcps, ih]

theorem Vocabulary.isUnknown {t : SymbolTable} {oov : Int} (h : Vocabulary t oov) :
    IsUnknown t oov := by
  rcases h.unknown with h1 | ⟨h1, h2⟩
  · exact .inl h1
  · refine .inr ⟨h1, (h.dense.labels oov).2 ⟨by omega, by omega⟩⟩

theorem Vocabulary.words_ne {t : SymbolTable} {oov : Int} (h : Vocabulary t oov) :
    sortedWords t oov ≠ [] := by
  obtain ⟨l, w, hw⟩ := h.some
  exact List.ne_nil_of_mem (h.dense.mem_words.2 ⟨l, hw⟩)

/-- The order table when the unknown word is last. -/
theorem Built.order_eq {t : SymbolTable} {oov : Int} {T : Tables} (hv : Vocabulary t oov)
    (h : Built t oov (sortedWords t oov) T) :
    T.order = if oov = -1 then 0 :: (sortedWords t oov).map t.findLabel
      else 0 :: (sortedWords t oov).map t.findLabel ++ [oov] := by
  rw [h.order]
  by_cases ho : oov = -1
  · simp [ho]
  · rw [if_neg ho, if_neg ho]
    rcases hv.unknown with h1 | ⟨h1, h2⟩
    · exact absurd h1 ho
    have hlen := hv.dense.words_length hv.isUnknown
    rw [if_neg ho] at hlen
    have e : oov.toNat = (0 :: (sortedWords t oov).map t.findLabel).length := by simp; omega
    rw [e, ← h2]
    exact set_splice _ _ _ []

theorem Built.ready {C : Type} {M : Static C} (hv : Vocabulary M.base.symbols M.base.oov)
    (h : Built M.base.symbols M.base.oov (sortedWords M.base.symbols M.base.oov) M.tables) :
    Ready M (sortedWords M.base.symbols M.base.oov) := by
  have hd := hv.dense
  have hw : ∀ w ∈ sortedWords M.base.symbols M.base.oov, w ≠ [] ∧ 32 ∉ w := by
    intro w hw
    obtain ⟨l, hl⟩ := hd.mem_words.1 hw
    exact hv.words l w hl
  refine ⟨hd.words_sorted _, hw, ?_, ?_, ?_⟩
  · intro i w hi
    constructor
    · rw [h.order_eq hv]
      have : ((sortedWords M.base.symbols M.base.oov).map M.base.symbols.findLabel)[i]? =
          some (M.base.symbols.findLabel w) := by
        rw [List.getElem?_map, hi]; rfl
      split
      · rw [List.getElem?_cons_succ]; exact this
      · rw [List.cons_append, List.getElem?_cons_succ, List.getElem?_append_left]
        · exact this
        · exact lt_of_getElem?_eq_some this
    · obtain ⟨l, hl, _⟩ := hd.mem_words.1 (List.mem_of_getElem? hi)
      rw [findLabel_of_mem hd.names hl, findSymbol_of_mem hd.keys hl]
  · intro i u v hu hv'
    rw [h.prev]
    have := lcps_get _ [[]] i u v hu hv'
    split
    · rw [List.getElem?_cons_succ]; exact this
    · rw [List.cons_append, List.getElem?_cons_succ, List.getElem?_append_left]
      · exact this
      · exact lt_of_getElem?_eq_some this
  · rw [h.chars, h.ends]
    exact groups_all (hd.words_sorted _) (fun w hm => (hw w hm).1) hv.words_ne

theorem maxLength_ge (t : SymbolTable) : ∀ e ∈ t, (e.2.length : Int) ≤ maxLength t := by
  have aux : ∀ (l : SymbolTable) (m : Int),
      m ≤ l.foldl (fun m e => if ((strSplitByChar e.2).length : Int) > m then
        ((strSplitByChar e.2).length : Int) else m) m ∧
      ∀ e ∈ l, (e.2.length : Int) ≤ l.foldl (fun m e => if ((strSplitByChar e.2).length : Int) > m then
        ((strSplitByChar e.2).length : Int) else m) m := by
    intro l
    induction l with
    | nil => intro m; simp
    | cons a l ih =>
      intro m
      simp only [List.foldl_cons]
      obtain ⟨h1, h2⟩ := ih (if ((strSplitByChar a.2).length : Int) > m then
        ((strSplitByChar a.2).length : Int) else m)
      have hl : (strSplitByChar a.2).length = a.2.length := by simp [strSplitByChar]
      refine ⟨?_, ?_⟩
      · split at h1 <;> split <;> omega
      · intro e he
        rcases List.mem_cons.1 he with rfl | he
        · split at h1 <;> split <;> omega
        · exact h2 e he
  exact (aux t 0).2

end Mozolm.Word
