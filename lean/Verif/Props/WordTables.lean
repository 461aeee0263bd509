import Verif.Word.Tables

/-!
# C30: the order tables of the word model

For every dense symbol table.
-/

namespace Mozolm.Word

/-- **C30** (no unknown word) the order table and the position table are mutually inverse permutations
of `0, …, n - 1`; epsilon is first, and the words after it are in strictly increasing order. -/
theorem C30_inverse {t : SymbolTable} (hd : Dense t) :
    ∃ T, buildTables t (-1) = .ok (some T) ∧
      T.order.length = t.length ∧ T.position.length = t.length ∧
      T.order[0]? = some 0 ∧ T.position[0]? = some 0 ∧
      (∀ i : Nat, i < t.length → ∃ l : Nat, l < t.length ∧ T.order[i]? = some (l : Int) ∧
        T.position[l]? = some (i : Int)) ∧
      (∀ l : Nat, l < t.length → ∃ i : Nat, i < t.length ∧ T.position[l]? = some (i : Int) ∧
        T.order[i]? = some (l : Int)) ∧
      (∀ (i j : Nat) (l l' : Int), 1 ≤ i → i < j → T.order[i]? = some l → T.order[j]? = some l' →
        t.findSymbol l < t.findSymbol l') := by
  obtain ⟨T, h1, h2⟩ := buildTables_spec hd (oov := -1) (.inl rfl)
  have hlen := hd.words_length (oov := -1) (.inl rfl)
  simp only [if_true] at hlen
  have hord := h2.order
  rw [if_pos rfl] at hord
  have hpos : 0 < t.length := List.length_pos_of_ne_nil hd.nonempty
  have hz : T.position[0]? = some 0 := by
    apply h2.pos' 0 hpos
    intro w hw
    obtain ⟨l, k1, k2, _⟩ := hd.mem_words.1 hw
    rw [findLabel_of_mem hd.names k1]
    exact k2
  have hword : ∀ (j : Nat) w, (sortedWords t (-1))[j]? = some w →
      (t.findLabel w).toNat < t.length ∧ 0 < t.findLabel w ∧ t.findSymbol (t.findLabel w) = w ∧
      T.order[j + 1]? = some (t.findLabel w) ∧
      T.position[(t.findLabel w).toNat]? = some ((j + 1 : Nat) : Int) := by
    intro j w hw
    obtain ⟨l, k1, k2, _⟩ := hd.mem_words.1 (List.mem_of_getElem? hw)
    have hr := hd.range k1
    rw [findLabel_of_mem hd.names k1]
    refine ⟨by omega, by omega, findSymbol_of_mem hd.keys k1, ?_, ?_⟩
    · rw [hord, List.getElem?_cons_succ, List.getElem?_map, hw]
      simp [findLabel_of_mem hd.names k1]
    · have := h2.pos j w hw
      rw [findLabel_of_mem hd.names k1, Nat.add_comm] at this
      exact this
  refine ⟨T, h1, by rw [hord]; simp; omega, h2.plen, by rw [hord]; rfl, hz, ?_, ?_, ?_⟩
  · intro i hi
    cases i with
    | zero => exact ⟨0, hpos, by rw [hord]; rfl, hz⟩
    | succ i =>
      obtain ⟨w, hw⟩ := exists_getElem?_of_lt (l := sortedWords t (-1)) (i := i) (by omega)
      obtain ⟨k1, k2, k3, k4, k5⟩ := hword i w hw
      exact ⟨_, k1, by rw [k4]; congr 1; omega, k5⟩
  · intro l hl
    cases l with
    | zero => exact ⟨0, hpos, hz, by rw [hord]; rfl⟩
    | succ l =>
      obtain ⟨w, hw⟩ := hd.exists_name (l := ((l + 1 : Nat) : Int)) (by omega) (by omega)
      have hm : w ∈ sortedWords t (-1) := hd.mem_words.2 ⟨_, hw, by omega, by omega⟩
      obtain ⟨i, hi⟩ := List.getElem?_of_mem hm
      obtain ⟨k1, k2, k3, k4, k5⟩ := hword i w hi
      have hil := lt_of_getElem?_eq_some hi
      have e := findLabel_of_mem hd.names hw
      rw [e, Int.toNat_natCast] at k5
      rw [e] at k4
      exact ⟨i + 1, by omega, k5, k4⟩
  · intro i j l l' hi hij hl hl'
    obtain ⟨i, rfl⟩ : ∃ k, i = k + 1 := ⟨i - 1, by omega⟩
    obtain ⟨j, rfl⟩ : ∃ k, j = k + 1 := ⟨j - 1, by omega⟩
    rw [hord, List.getElem?_cons_succ, List.getElem?_map] at hl hl'
    cases hu : (sortedWords t (-1))[i]? with
    | none => rw [hu] at hl; cases hl
    | some u =>
      cases hv : (sortedWords t (-1))[j]? with
      | none => rw [hv] at hl'; cases hl'
      | some v =>
        rw [hu] at hl; rw [hv] at hl'
        simp only [Option.map_some, Option.some.injEq] at hl hl'
        rw [← hl, ← hl', (hword i u hu).2.2.1, (hword j v hv).2.2.1]
        have hs := hd.words_sorted (-1)
        rw [List.pairwise_iff_getElem] at hs
        have hil := lt_of_getElem?_eq_some hu
        have hjl := lt_of_getElem?_eq_some hv
        have := hs i j hil hjl (by omega)
        rw [List.getElem?_eq_getElem hil] at hu
        rw [List.getElem?_eq_getElem hjl] at hv
        cases hu; cases hv
        exact this

/-- **C30** (with an unknown word, label `u`) the order table has `n - 1` at index `u` and is otherwise
epsilon, the words in increasing order and `u`; so it is right exactly when `u` is the last label.  The
position of every word is right, that of the unknown word is 0. -/
theorem C30_unknown {t : SymbolTable} (hd : Dense t) {u : Nat} (hu : 0 < u) (hul : u < t.length) :
    ∃ (T : Tables) (W : List Str), buildTables t u = .ok (some T) ∧
      W.Pairwise (· < ·) ∧ (∀ w, w ∈ W ↔ ∃ l, IsWord t u l w) ∧
      T.order = (0 :: W.map t.findLabel ++ [(u : Int)]).set u ((t.length : Int) - 1) ∧
      T.position[u]? = some 0 ∧ T.position[0]? = some 0 ∧
      (∀ (j : Nat) w, W[j]? = some w →
        T.position[(t.findLabel w).toNat]? = some ((j + 1 : Nat) : Int)) ∧
      (T.order = 0 :: W.map t.findLabel ++ [(u : Int)] ↔
        (0 :: W.map t.findLabel ++ [(u : Int)])[u]? = some ((t.length : Int) - 1)) := by
  have ho : IsUnknown t (u : Int) :=
    .inr ⟨by omega, (hd.labels u).2 ⟨by omega, by omega⟩⟩
  obtain ⟨T, h1, h2⟩ := buildTables_spec hd ho
  have hlen := hd.words_length ho
  rw [if_neg (by omega)] at hlen
  have hord := h2.order
  rw [if_neg (by omega), Int.toNat_natCast] at hord
  refine ⟨T, sortedWords t u, h1, hd.words_sorted _, fun w => hd.mem_words, hord, ?_, ?_, ?_, ?_⟩
  · apply h2.pos' u hul
    intro w hw
    obtain ⟨l, k1, _, k3⟩ := hd.mem_words.1 hw
    rw [findLabel_of_mem hd.names k1]
    exact k3
  · apply h2.pos' 0 (by omega)
    intro w hw
    obtain ⟨l, k1, k2, _⟩ := hd.mem_words.1 hw
    rw [findLabel_of_mem hd.names k1]
    exact k2
  · intro j w hw
    have := h2.pos j w hw
    rw [Nat.add_comm] at this
    exact this
  · rw [hord]
    have hl : u < (0 :: (sortedWords t u).map t.findLabel ++ [(u : Int)]).length := by simp; omega
    constructor
    · intro h
      have := List.getElem?_set_self (l := 0 :: (sortedWords t u).map t.findLabel ++ [(u : Int)])
        (a := (t.length : Int) - 1) hl
      rw [h] at this
      exact this
    · intro h
      rw [List.getElem?_eq_getElem hl] at h
      have := Option.some.inj h
      rw [← this]
      exact List.set_getElem_self hl

/-- **C30** is false with an unknown word, for every vocabulary: its position is that of epsilon, so the
position table is not even injective. -/
theorem C30_unknown_false {t : SymbolTable} (hd : Dense t) {u : Nat} (hu : 0 < u) (hul : u < t.length)
    {T : Tables} (h : buildTables t u = .ok (some T)) :
    ¬ ∀ l : Nat, l < t.length → ∃ i : Nat, T.position[l]? = some (i : Int) ∧
      T.order[i]? = some (l : Int) := by
  obtain ⟨T', W, g1, _, _, _, g2, g3, _⟩ := C30_unknown hd hu hul
  rw [g1] at h; cases h
  intro hall
  obtain ⟨i, a1, a2⟩ := hall u hul
  obtain ⟨j, b1, b2⟩ := hall 0 (by omega)
  rw [g2] at a1; rw [g3] at b1
  have : i = 0 := by have := Option.some.inj a1; omega
  have : j = 0 := by have := Option.some.inj b1; omega
  subst i; subst j
  rw [a2] at b2
  have := Option.some.inj b2
  omega

/-- A vocabulary meeting the hypotheses: epsilon, "b", "ab", "a" with labels 0, 1, 2, 3. -/
def demoVocab : SymbolTable := [(0, [60]), (1, [98]), (2, [97, 98]), (3, [97])]

/-- The same with an unknown word "u" as label 1. -/
def demoVocabUnk : SymbolTable := [(0, [60]), (1, [117]), (2, [97]), (3, [97, 98]), (4, [98])]

theorem demoVocab_dense : Dense demoVocab := by
  refine ⟨by simp [demoVocab], by decide, by decide, fun l => ?_⟩
  simp [demoVocab]; omega

theorem demoVocabUnk_dense : Dense demoVocabUnk := by
  refine ⟨by simp [demoVocabUnk], by decide, by decide, fun l => ?_⟩
  simp [demoVocabUnk]; omega

example : buildTables demoVocab (-1) =
    .ok (some { order := [0, 3, 2, 1], position := [0, 3, 2, 1], prevPrefix := [0, 0, 1, 0]
                firstChars := [[97], [98]], firstEnds := [2, 3] }) := by rfl

/-- With the unknown word as label 1 the word "a" (label 2) is lost from the order table: index 1 has
label 4, "b". -/
example : buildTables demoVocabUnk 1 =
    .ok (some { order := [0, 4, 3, 4, 1], position := [0, 0, 1, 2, 3], prevPrefix := [0, 0, 1, 0, 0]
                firstChars := [[97], [98]], firstEnds := [2, 3] }) := by rfl

end Mozolm.Word
