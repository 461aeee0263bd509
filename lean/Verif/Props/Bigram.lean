import Verif.Bigram.Reach

/-! # Property theorems about the simple bigram model (C14, C15, C17-C20) -/

namespace Mozolm.Bigram

theorem Reachable.wf {m : Model} (h : Reachable m) : WF m := by
  obtain ⟨v, c, m0, us, h1, h2⟩ := h
  exact ((run_spec (read_wf h1)).1 m h2).1

/-- C14 (bigram): a non-positive count succeeds and changes nothing. -/
theorem C14_bigram_nonpositive_noop (m : Model) (s : Int) (cs : List Int) {n : Int} (h : n ≤ 0) :
    updateLMCounts m s cs n = .ok (true, m) := by simp [updateLMCounts, h]

/-- C15: after a successful `Read` and any history of updates the table is square, each state's
normaliser is the sum of its row of counts, and every count is at least one. -/
theorem C15_normaliser_is_row_sum {v c : FileArg} {m0 m : Model} {us : List Update}
    (hread : read v c = .ok (some m0)) (hrun : run m0 us = .ok m) :
    m.counts.length = m.utf8.length ∧ m.norm.length = m.utf8.length ∧
    ∀ (i : Nat) (row : List Int), m.counts[i]? = some row →
      row.length = m.utf8.length ∧ m.norm[i]? = some row.sum ∧ ∀ x ∈ row, 1 ≤ x := by
  have w := ((run_spec (read_wf hread)).1 m hrun).1
  exact ⟨w.rowsLen, w.normLen, fun i row hi => ⟨w.rowLen row (List.mem_of_getElem? hi), w.sum i row hi,
    fun x hx => (w.pos row (List.mem_of_getElem? hi) x hx).1⟩⟩

/-- C17: the count of a pair of positions is its initial value plus the observed moves, with
multiplicity; vocabulary and shape do not change. -/
theorem C17_counts_are_observations {v c : FileArg} {m0 m : Model} {us : List Update}
    (hread : read v c = .ok (some m0)) (hrun : run m0 us = .ok m) :
    m.utf8 = m0.utf8 ∧ m.vocab = m0.vocab ∧
    (∀ i j, m.count i j = (m0.count i j).map fun x => x + observed m0.utf8 i j us) := by
  obtain ⟨-, h1, h2, h3⟩ := (run_spec (read_wf hread)).1 m hrun
  exact ⟨h1, h2, h3⟩

/-- C17: a history fails exactly when some count leaves the 64-bit range. -/
theorem C17_only_overflow {v c : FileArg} {m0 : Model} (hread : read v c = .ok (some m0))
    (us : List Update) :
    (∃ m, run m0 us = .ok m) ↔
      ∀ i j x, m0.count i j = some x → x + observed m0.utf8 i j us ≤ maxInt64 := by
  have w := read_wf hread
  refine ⟨?_, (run_spec w).2⟩
  rintro ⟨m, hm⟩ i j x hx
  obtain ⟨w', -, -, h3⟩ := (run_spec w).1 m hm
  have := h3 i j
  rw [hx] at this
  exact (w'.count_range this).2.2.2

theorem bump_error {m : Model} {i j : Nat} {n : Int} {e : Fault} (h : bump m i j n = .error e) :
    e = .ub := by
  unfold bump at h
  split at h
  · split at h
    · split at h
      · cases h
      · cases h; rfl
    · cases h; rfl
  · cases h; rfl

theorem updateLoop_error {cs : List Int} : ∀ {m : Model} {i : Nat} {n : Int} {e : Fault},
    updateLoop m n i cs = .error e → e = .ub := by
  induction cs with
  | nil => intro m i n e h; cases h
  | cons c cs ih =>
    intro m i n e h
    simp only [updateLoop] at h
    split at h
    · exact ih h
    · rcases bind_error.1 h with h | ⟨m', -, h⟩
      · exact bump_error h
      · exact ih h

theorem run_error {us : List Update} : ∀ {m : Model} {e : Fault}, run m us = .error e → e = .ub := by
  induction us with
  | nil => intro m e h; cases h
  | cons u us ih =>
    intro m e h
    simp only [run] at h
    rcases bind_error.1 h with h | ⟨r, -, h⟩
    · unfold updateLMCounts at h
      split at h
      · cases h
      · rcases bind_error.1 h with h | ⟨r, -, h⟩
        · exact updateLoop_error h
        · cases h
    · exact ih h

theorem observed_perm {us vs : List Update} (h : us.Perm vs) (utf8 : List Int) (i j : Nat) :
    observed utf8 i j us = observed utf8 i j vs := by
  induction h with
  | nil => rfl
  | cons u _ ih => simp only [observed, ih]
  | swap u v l => simp only [observed]; omega
  | trans _ _ ih1 ih2 => exact ih1.trans ih2

theorem eq_of_counts {m m' : Model} (w : WF m) (w' : WF m') (h1 : m.utf8 = m'.utf8)
    (h2 : m.vocab = m'.vocab) (h3 : ∀ i j, m.count i j = m'.count i j) : m = m' := by
  have hc : m.counts = m'.counts := by
    apply List.ext_getElem?
    intro i
    rcases Nat.lt_or_ge i m.utf8.length with hi | hi
    · obtain ⟨r, hr⟩ := exists_getElem?_of_lt (l := m.counts) (i := i) (by rw [w.rowsLen]; exact hi)
      obtain ⟨r', hr'⟩ := exists_getElem?_of_lt (l := m'.counts) (i := i)
        (by rw [w'.rowsLen, ← h1]; exact hi)
      rw [hr, hr']
      congr 1
      apply List.ext_getElem?
      intro j
      simpa [Model.count, hr, hr'] using h3 i j
    · rw [List.getElem?_eq_none (by rw [w.rowsLen]; exact hi),
        List.getElem?_eq_none (by rw [w'.rowsLen, ← h1]; exact hi)]
  have hn : m.norm = m'.norm := by
    apply List.ext_getElem?
    intro i
    rcases Nat.lt_or_ge i m.utf8.length with hi | hi
    · obtain ⟨r, hr⟩ := exists_getElem?_of_lt (l := m.counts) (i := i) (by rw [w.rowsLen]; exact hi)
      rw [w.sum i r hr, w'.sum i r (by rw [← hc]; exact hr)]
    · rw [List.getElem?_eq_none (by rw [w.normLen]; exact hi),
        List.getElem?_eq_none (by rw [w'.normLen, ← h1]; exact hi)]
  cases m; cases m'; simp_all

/-- C18: the order of updates does not matter, neither for the resulting model nor for whether a
count overflows. -/
theorem C18_updates_commute {v c : FileArg} {m0 : Model} (hread : read v c = .ok (some m0))
    {us vs : List Update} (hp : us.Perm vs) : run m0 us = run m0 vs := by
  have hiff : (∃ m, run m0 us = .ok m) ↔ ∃ m, run m0 vs = .ok m := by
    rw [C17_only_overflow hread, C17_only_overflow hread]
    simp only [observed_perm hp]
  have w := read_wf hread
  cases h1 : run m0 us with
  | ok m =>
    obtain ⟨m', h2⟩ := hiff.1 ⟨m, h1⟩
    rw [h2]
    obtain ⟨w1, u1, v1, k1⟩ := (run_spec w).1 m h1
    obtain ⟨w2, u2, v2, k2⟩ := (run_spec w).1 m' h2
    congr 1
    refine eq_of_counts w1 w2 (u1.trans u2.symm) (v1.trans v2.symm) fun i j => ?_
    rw [k1, k2, observed_perm hp]
  | error e =>
    cases h2 : run m0 vs with
    | ok m => rw [h1, h2] at hiff; simp at hiff
    | error e' => rw [run_error h1, run_error h2]

/-- C19: `Read` succeeds with vocabulary `utf8` and counts `mat` exactly when the files describe them
(and no symbol is the largest `int`). -/
theorem C19_read_accepts_described {v c : FileArg} {utf8 : List Int} {mat : List (List Int)} :
    (∃ m, read v c = .ok (some m) ∧ m.utf8 = utf8 ∧ m.counts = mat) ↔
      Describes v c utf8 mat ∧ ∀ u ∈ utf8, u < maxInt32 := by
  rw [← read_iff]
  constructor
  · rintro ⟨m, h, h1, h2⟩; exact ⟨m, h, read_wf h, h1, h2⟩
  · rintro ⟨m, h, -, h1, h2⟩; exact ⟨m, h, h1, h2⟩

theorem vocabLoop_total {lines : List Str} : ∀ {last : Int} {acc : List Int},
    (∀ line ∈ lines, ∀ f ∈ fields [] line, ∃ x, stoi minInt32 maxInt32 f = .ok x) →
    (vocabLoop last acc lines = .ok none) ∨ ∃ r, vocabLoop last acc lines = .ok (some r) := by
  induction lines with
  | nil => intro last acc _; exact .inr ⟨acc, rfl⟩
  | cons line lines ih =>
    intro last acc h
    simp only [vocabLoop]
    split
    · exact .inl rfl
    · split
      · next f hf =>
        obtain ⟨x, hx⟩ := h line (by simp) f (by rw [hf]; simp)
        simp only [hx, ok_bind]
        split
        · exact .inl rfl
        · exact ih fun l hl => h l (by simp [hl])
      · exact .inl rfl

theorem countRow_total {fs : List Str} {idx : Nat} : ∀ {norm row : List Int}, idx < norm.length →
    (∀ f ∈ fs, ∃ x, stoi minInt64 maxInt64 f = .ok x) →
    ∃ r, countRow idx norm row fs = .ok r ∧ r.2.length = norm.length := by
  induction fs with
  | nil => intro norm row _ _; exact ⟨_, rfl, rfl⟩
  | cons f fs ih =>
    intro norm row hlt h
    obtain ⟨x, hx⟩ := h f (by simp)
    obtain ⟨y, hy⟩ := exists_getElem?_of_lt hlt
    simp only [countRow, hx, ok_bind, hy]
    obtain ⟨r, e, hl⟩ := ih (norm := norm.set idx (y + if 1 < x then x else 1))
      (row := row ++ [if 1 < x then x else 1]) (by simpa using hlt) fun g hg => h g (by simp [hg])
    exact ⟨r, e, by simpa using hl⟩

theorem countLoop_total {rows : Nat} {lines : List Str} : ∀ {idx : Nat} {norm : List Int}
    {mat : List (List Int)}, norm.length = rows → idx + lines.length ≤ rows →
    (∀ line ∈ lines, ∀ f ∈ fields [] line, ∃ x, stoi minInt64 maxInt64 f = .ok x) →
    ∃ r, countLoop rows idx norm mat lines = .ok r := by
  induction lines with
  | nil => intro idx norm mat _ _ _; exact ⟨_, rfl⟩
  | cons line lines ih =>
    intro idx norm mat hn hl h
    simp only [countLoop]
    split
    · exact ⟨_, rfl⟩
    · split
      · exact ⟨_, rfl⟩
      · simp only [List.length_cons] at hl
        obtain ⟨r, e, hr⟩ := countRow_total (row := []) (idx := idx) (norm := norm) (by omega)
          (h line (by simp))
        simp only [e, ok_bind]
        exact ih (by omega) (by omega) fun l hl => h l (by simp [hl])

theorem finish_total {utf8 norm : List Int} {counts : List (List Int)} (hne : utf8 ≠ [])
    (hm : ∀ u ∈ utf8, u < maxInt32) : ∃ r, finishRead utf8 norm counts = .ok r := by
  unfold finishRead
  simp only
  cases hb : utf8.getLast? with
  | none => exact absurd (List.getLast?_eq_none_iff.1 hb) hne
  | some b =>
    simp only
    rw [if_neg (by have := hm b (List.mem_of_getLast? hb); omega)]
    split <;> exact ⟨_, rfl⟩

/-- C19, a readable sufficient condition for "otherwise it reports an error": neither undefined behaviour
nor an exception, for input files whose fields are all numbers in range, a vocabulary file with at least
one line and no symbol equal to the largest `int`, and no more count rows than vocabulary lines.  The
exact condition is `C19_crashes_exactly` (BigramFault.lean). -/
theorem C19_no_fault (v c : Option (List Nat))
    (hv : ∀ bytes, v = some bytes → getLines [] bytes ≠ [] ∧
      ∀ line ∈ getLines [] bytes, ∀ f ∈ fields [] line,
        ∃ x, stoi minInt32 maxInt32 f = .ok x ∧ x < maxInt32)
    (hc : ∀ bytes, c = some bytes → ∀ line ∈ getLines [] bytes, ∀ f ∈ fields [] line,
        ∃ x, stoi minInt64 maxInt64 f = .ok x)
    (hrows : ∀ vb cb, v = some vb → c = some cb →
      (getLines [] cb).length ≤ (getLines [] vb).length) :
    (∃ r, read .absent (.named c) = .ok r) ∧ (∃ r, read (.named v) .absent = .ok r) ∧
      ∃ r, read (.named v) (.named c) = .ok r := by
  have hvoc : readVocabSymbols v = .ok none ∨ ∃ utf8, readVocabSymbols v = .ok (some utf8) ∧
      utf8 ≠ [] ∧ (∀ u ∈ utf8, u < maxInt32) ∧
      ∀ cb, c = some cb → (getLines [] cb).length ≤ utf8.length := by
    cases v with
    | none => exact .inl rfl
    | some bytes =>
      obtain ⟨h1, h2⟩ := hv bytes rfl
      rcases vocabLoop_total (last := -1) (acc := []) (lines := getLines [] bytes)
        (fun l hl f hf => by obtain ⟨x, hx, -⟩ := h2 l hl f hf; exact ⟨x, hx⟩) with h | ⟨r, h⟩
      · exact .inl h
      · refine .inr ⟨r, h, ?_⟩
        obtain ⟨p1, -, -⟩ := readVocab_iff.1 h
        have hlen := p1.length_eq
        refine ⟨fun h0 => h1 ?_, ?_, fun cb hcb => by rw [← hlen]; exact hrows bytes cb rfl hcb⟩
        · rw [h0] at hlen; exact List.length_eq_zero_iff.1 hlen
        · clear h h1 hlen hrows hv hc
          generalize getLines [] bytes = L at p1 h2
          induction p1 with
          | nil => simp
          | cons hl _ ih =>
            intro u hu
            rcases List.mem_cons.1 hu with rfl | hu
            · obtain ⟨f, hf, hx⟩ := hl
              obtain ⟨x, hx', hlt⟩ := h2 _ List.mem_cons_self f (by rw [hf]; simp)
              rw [hx] at hx'; cases hx'; exact hlt
            · exact ih (fun l hl => h2 l (by simp [hl])) u hu
  refine ⟨?_, ?_, ?_⟩
  · have hd : defaultVocab ≠ [] := by unfold defaultVocab; simp
    have := finish_total (utf8 := defaultVocab) (norm := []) (counts := []) hd
      fun u hu => (default_nonneg u hu).2
    simpa only [read] using this
  · rcases hvoc with h | ⟨utf8, h, h1, h2, -⟩
    · exact ⟨none, by simp [read, h]⟩
    · obtain ⟨r, hr⟩ := finish_total (norm := List.replicate utf8.length 0) (counts := []) h1 h2
      exact ⟨r, by simp [read, h, hr]⟩
  · rcases hvoc with h | ⟨utf8, h, h1, h2, h3⟩
    · exact ⟨none, by simp [read, h]⟩
    · cases c with
      | none => exact ⟨none, by simp [read, h, readCountMatrix]⟩
      | some cb =>
        obtain ⟨r, hr⟩ := countLoop_total (rows := utf8.length) (idx := 0) (lines := getLines [] cb)
          (norm := List.replicate utf8.length 0) (mat := []) (by simp)
          (by have := h3 cb rfl; omega) (hc cb rfl)
        cases r with
        | none => exact ⟨none, by simp [read, h, readCountMatrix, hr]⟩
        | some p =>
          obtain ⟨k, nrm, mat⟩ := p
          by_cases hk : k = utf8.length
          · obtain ⟨r, hf⟩ := finish_total (norm := nrm) (counts := mat) h1 h2
            exact ⟨r, by simp [read, h, readCountMatrix, hr, hk, hf]⟩
          · exact ⟨none, by simp [read, h, readCountMatrix, hr, hk]⟩

/-- C19 is false: a count file with one more row than the vocabulary writes past the normalisers.
Vocabulary file `"97\n"`, count file `"1\n1\n"`. -/
theorem C19_extra_row_false :
    read (.named (some [57, 55, 10])) (.named (some [49, 10, 49, 10])) = .error .ub := by rfl

/-- C19 is false: an empty vocabulary file. -/
theorem C19_empty_vocab_false : read (.named (some [])) .absent = .error .ub := by rfl

/-- C19 is false: a field that is not a number ends the process (`std::invalid_argument`). -/
theorem C19_non_numeric_false : read (.named (some [97, 10])) .absent = .error .thrown := by rfl

/-- C19 is false: the symbol 2147483647 overflows `int`. -/
theorem C19_largest_symbol_false :
    read (.named (some [50, 49, 52, 55, 52, 56, 51, 54, 52, 55, 10])) .absent = .error .ub := by rfl

/-- C20: `NextState` on a vocabulary symbol gives its position, from any state. -/
theorem C20_next_state {m : Model} (h : Reachable m) (s c : Int) :
    (∀ (j : Nat), m.utf8[j]? = some c → nextState m s c = j ∧ stateSym m j = c) ∧
    (c ∉ m.utf8 → nextState m s c = -1) := by
  have w := h.wf
  refine ⟨fun j hj => ⟨?_, ?_⟩, fun hc => ?_⟩
  · rw [w.index', position_of_get w.sorted hj]
  · simp [stateSym, hj]
  · rw [w.index', position_none.2 hc]

/-- C20: `StateSym` inverts `NextState`, and is -1 exactly on ids that are not states. -/
theorem C20_state_sym {m : Model} (h : Reachable m) (s : Int) :
    (0 ≤ s ∧ s < m.utf8.length → nextState m 0 (stateSym m s) = s ∧ stateSym m s ∈ m.utf8) ∧
    (¬ (0 ≤ s ∧ s < m.utf8.length) → stateSym m s = -1) := by
  have w := h.wf
  constructor
  · rintro ⟨h0, h1⟩
    obtain ⟨c, hc⟩ := exists_getElem?_of_lt (l := m.utf8) (i := s.toNat) (by omega)
    have e : stateSym m s = c := by simp [stateSym, h0, hc]
    rw [e]
    refine ⟨?_, List.mem_of_getElem? hc⟩
    rw [((C20_next_state h 0 c).1 _ hc).1]; omega
  · intro hn
    unfold stateSym
    split
    · rw [List.getElem?_eq_none (by omega)]
    · rfl

/-- C20: the state after a context depends only on the context's last symbol. -/
theorem C20_context_last_symbol {m : Model} (h : Reachable m) (cs : List Int) (c init : Int) :
    contextState m (cs ++ [c]) init = contextState m [c] 0 ∧
      (∀ (j : Nat), m.utf8[j]? = some c → contextState m [c] 0 = j) ∧
      (c ∉ m.utf8 → contextState m [c] 0 = 0) := by
  refine ⟨?_, fun j hj => ?_, fun hc => ?_⟩
  · unfold contextState
    simp only [List.foldl_append, List.foldl_cons, List.foldl_nil]
    have : ∀ s s' : Int, nextState m s c = nextState m s' c := fun _ _ => rfl
    rw [this _ (if (0 : Int) < 0 then 0 else 0)]
  · unfold contextState
    simp only [List.foldl_cons, List.foldl_nil]
    rw [((C20_next_state h _ c).1 j hj).1, if_neg (by omega)]
  · unfold contextState
    simp only [List.foldl_cons, List.foldl_nil]
    rw [(C20_next_state h _ c).2 hc, if_pos (by omega)]

/-! ## The hypotheses are met -/

/-- vocabulary `"97\n98\n"`, counts `"3 0\n1 2\n"`: read, then updated -/
def demoVocab : List Nat := [57, 55, 10, 57, 56, 10]
def demoCounts : List Nat := [51, 32, 48, 10, 49, 32, 50, 10]

example : read (.named (some demoVocab)) (.named (some demoCounts)) =
    .ok (some ⟨[97, 98], List.replicate 97 (-1) ++ [0, 1], [4, 3], [[3, 1], [1, 2]]⟩) := by rfl

/-- a history with an out-of-vocabulary symbol, an invalid state and a zero count -/
def demoUpdates : List Update := [⟨1, [97, 98, 120, 98], 2⟩, ⟨7, [97], 5⟩, ⟨0, [98], 0⟩]

example : ∃ m0 m, read (.named (some demoVocab)) (.named (some demoCounts)) = .ok (some m0) ∧
    run m0 demoUpdates = .ok m ∧ m.norm = [13, 5] ∧ m.counts = [[8, 5], [3, 2]] := ⟨_, _, rfl, rfl, rfl, rfl⟩

end Mozolm.Bigram
