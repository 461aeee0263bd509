import Verif.Props.Bigram

/-! # Exactly which input files make `Read` fault (C19) -/

namespace Mozolm.Bigram

/-- The input pairs on which `Read` does not return: it throws an exception nobody catches, or runs
into undefined behaviour. -/
inductive Crashes : FileArg → FileArg → Prop
  /-- the vocabulary file is good up to a line with one field, which is not a number in the range of
  `int` (`std::stoi` throws) -/
  | vocabField {v : List Nat} {c : FileArg} {pre rest : List Str} {line f : Str} {syms : List Int} :
      getLines [] v = pre ++ line :: rest → Pointwise VocabLine pre syms →
      ((-1) :: syms).Pairwise (· < ·) → fields [] line = [f] →
      (∀ x, stoi minInt32 maxInt32 f ≠ .ok x) → Crashes (.named (some v)) c
  /-- the vocabulary file is empty, and so is the count file if there is one -/
  | noSymbol {v : List Nat} {c : FileArg} : getLines [] v = [] →
      (∀ b, c = .named b → ∃ bytes, b = some bytes ∧ getLines [] bytes = []) →
      Crashes (.named (some v)) c
  /-- the vocabulary contains the largest `int` (and the counts, if given, are readable) -/
  | largest {v : List Nat} {c : FileArg} {utf8 : List Int} : VocabFile v utf8 → maxInt32 ∈ utf8 →
      (∀ b, c = .named b → ∃ bytes mat, b = some bytes ∧ CountFile utf8.length bytes mat) →
      Crashes (.named (some v)) c
  /-- the count file is good up to a row of the right length with a field that is not a number in the
  range of `int64_t` (`std::stol` throws) -/
  | countField {v b : List Nat} {utf8 : List Int} {pre rest : List Str} {line f : Str}
      {mat : List (List Int)} : VocabFile v utf8 → getLines [] b = pre ++ line :: rest →
      Pointwise (CountLine utf8.length) pre mat → (fields [] line).length = utf8.length →
      f ∈ fields [] line → (∀ x, stoi minInt64 maxInt64 f ≠ .ok x) →
      Crashes (.named (some v)) (.named (some b))
  /-- the count file has a good matrix followed by at least one more row of the right length -/
  | extraRow {v b : List Nat} {utf8 : List Int} {pre rest : List Str} {line : Str}
      {mat : List (List Int)} : VocabFile v utf8 → getLines [] b = pre ++ line :: rest →
      Pointwise (CountLine utf8.length) pre mat → pre.length = utf8.length →
      (fields [] line).length = utf8.length → Crashes (.named (some v)) (.named (some b))

theorem vocabLoop_error {lines : List Str} : ∀ {last : Int} {acc : List Int},
    (∃ e, vocabLoop last acc lines = .error e) ↔
      ∃ pre line rest f syms, lines = pre ++ line :: rest ∧ Pointwise VocabLine pre syms ∧
        (last :: syms).Pairwise (· < ·) ∧ fields [] line = [f] ∧
        ∀ x, stoi minInt32 maxInt32 f ≠ .ok x := by
  induction lines with
  | nil =>
    intro last acc
    constructor
    · rintro ⟨e, h⟩; simp [vocabLoop] at h
    · rintro ⟨pre, line, rest, f, syms, h, _⟩; simp at h
  | cons line lines ih =>
    intro last acc
    have hcons : (∃ pre line' rest f syms, line :: lines = pre ++ line' :: rest ∧
        Pointwise VocabLine pre syms ∧ (last :: syms).Pairwise (· < ·) ∧ fields [] line' = [f] ∧
        ∀ x, stoi minInt32 maxInt32 f ≠ .ok x) ↔
        (∃ f, fields [] line = [f] ∧ ∀ x, stoi minInt32 maxInt32 f ≠ .ok x) ∨
        ∃ s, VocabLine line s ∧ last < s ∧ ∃ pre line' rest f syms, lines = pre ++ line' :: rest ∧
          Pointwise VocabLine pre syms ∧ (s :: syms).Pairwise (· < ·) ∧ fields [] line' = [f] ∧
          ∀ x, stoi minInt32 maxInt32 f ≠ .ok x := by
      constructor
      · rintro ⟨pre, line', rest, f, syms, h1, h2, h3, h4, h5⟩
        cases h2 with
        | nil =>
          simp only [List.nil_append, List.cons.injEq] at h1
          obtain ⟨rfl, rfl⟩ := h1
          exact .inl ⟨f, h4, h5⟩
        | @cons a s as ss hv hp =>
          simp only [List.cons_append, List.cons.injEq] at h1
          obtain ⟨rfl, rfl⟩ := h1
          have h3' := List.pairwise_cons.1 h3
          exact .inr ⟨s, hv, h3'.1 s (by simp), as, line', rest, f, ss, rfl, hp, h3'.2, h4, h5⟩
      · rintro (⟨f, h4, h5⟩ | ⟨s, hv, hlt, pre, line', rest, f, syms, h1, h2, h3, h4, h5⟩)
        · exact ⟨[], line, lines, f, [], rfl, .nil, by simp, h4, h5⟩
        · refine ⟨line :: pre, line', rest, f, s :: syms, by rw [h1]; rfl, .cons hv h2, ?_, h4, h5⟩
          refine List.pairwise_cons.2 ⟨?_, h3⟩
          intro a ha
          rcases List.mem_cons.1 ha with rfl | ha
          · exact hlt
          · have := (List.pairwise_cons.1 h3).1 a ha; omega
    rw [hcons]
    simp only [vocabLoop]
    split
    · next he =>
      subst he
      constructor
      · rintro ⟨e, h⟩; cases h
      · rintro (⟨f, h4, _⟩ | ⟨s, ⟨f, hv, _⟩, _⟩)
        · simp [fields] at h4
        · simp [fields] at hv
    · split
      · next f hf =>
        cases hx : stoi minInt32 maxInt32 f with
        | error e =>
          simp only [error_bind]
          refine ⟨fun _ => .inl ⟨f, hf, by rw [hx]; simp⟩, fun _ => ⟨e, rfl⟩⟩
        | ok x =>
          simp only [ok_bind]
          by_cases hle : x ≤ last
          · rw [if_pos hle]
            constructor
            · rintro ⟨e, h⟩; cases h
            · rintro (⟨f', h4, h5⟩ | ⟨s, ⟨f', hv, hx'⟩, hlt, _⟩)
              · rw [hf] at h4; cases h4; exact absurd hx (h5 x)
              · rw [hf] at hv; cases hv
                rw [hx] at hx'; cases hx'; omega
          · rw [if_neg hle, ih]
            constructor
            · intro h
              exact .inr ⟨x, ⟨f, hf, hx⟩, by omega, h⟩
            · rintro (⟨f', h4, h5⟩ | ⟨s, ⟨f', hv, hx'⟩, hlt, h⟩)
              · rw [hf] at h4; cases h4; exact absurd hx (h5 x)
              · rw [hf] at hv; cases hv
                rw [hx] at hx'; cases hx'; exact h
      · next hne =>
        constructor
        · rintro ⟨e, h⟩; cases h
        · rintro (⟨f, h4, _⟩ | ⟨s, ⟨f, hv, _⟩, _⟩)
          · exact absurd h4 (hne f)
          · exact absurd hv (hne f)

theorem countRow_error {fs : List Str} {idx : Nat} : ∀ {norm row : List Int},
    (∃ e, countRow idx norm row fs = .error e) ↔
      (∃ f ∈ fs, ∀ x, stoi minInt64 maxInt64 f ≠ .ok x) ∨ (fs ≠ [] ∧ norm.length ≤ idx) := by
  induction fs with
  | nil => intro norm row; simp [countRow]
  | cons f fs ih =>
    intro norm row
    simp only [countRow]
    cases hx : stoi minInt64 maxInt64 f with
    | error e =>
      simp only [error_bind]
      refine ⟨fun _ => .inl ⟨f, by simp, by rw [hx]; simp⟩, fun _ => ⟨e, rfl⟩⟩
    | ok x =>
      simp only [ok_bind]
      cases hn : norm[idx]? with
      | none =>
        refine ⟨fun _ => .inr ⟨by simp, ?_⟩, fun _ => ⟨.ub, rfl⟩⟩
        exact List.getElem?_eq_none_iff.1 hn
      | some y =>
        simp only
        rw [ih]
        have hlt := lt_of_getElem?_eq_some hn
        simp only [List.length_set]
        constructor
        · rintro (⟨f', h1, h2⟩ | ⟨_, h⟩)
          · exact .inl ⟨f', by simp [h1], h2⟩
          · omega
        · rintro (⟨f', h1, h2⟩ | ⟨_, h⟩)
          · rcases List.mem_cons.1 h1 with rfl | h1
            · exact absurd hx (h2 x)
            · exact .inl ⟨f', h1, h2⟩
          · omega

theorem countLine_of_row {n idx : Nat} {line : Str} {norm row' : List Int} {r : List Int × List Int}
    (hlt : idx < norm.length) (hl : (fields [] line).length = n)
    (h : countRow idx norm row' (fields [] line) = .ok r) : ∃ row, CountLine n line row := by
  obtain ⟨r1, r2⟩ := r
  obtain ⟨cs, h1, _⟩ := (countRow_iff hlt).1 h
  exact ⟨cs, hl, h1⟩

theorem countLoop_error {n : Nat} (hn : 0 < n) {lines : List Str} : ∀ {idx : Nat} {norm : List Int}
    {mat : List (List Int)}, norm.length = n → idx ≤ n →
    ((∃ e, countLoop n idx norm mat lines = .error e) ↔
      ∃ pre line rest ms, lines = pre ++ line :: rest ∧ Pointwise (CountLine n) pre ms ∧
        (fields [] line).length = n ∧
        ((∃ f ∈ fields [] line, ∀ x, stoi minInt64 maxInt64 f ≠ .ok x) ∨ idx + pre.length = n)) := by
  induction lines with
  | nil =>
    intro idx norm mat _ _
    constructor
    · rintro ⟨e, h⟩; cases h
    · rintro ⟨pre, line, rest, ms, h, _⟩; simp at h
  | cons line lines ih =>
    intro idx norm mat hnorm hidx
    have hcons : (∃ pre line' rest ms, line :: lines = pre ++ line' :: rest ∧
        Pointwise (CountLine n) pre ms ∧ (fields [] line').length = n ∧
        ((∃ f ∈ fields [] line', ∀ x, stoi minInt64 maxInt64 f ≠ .ok x) ∨ idx + pre.length = n)) ↔
        ((fields [] line).length = n ∧
          ((∃ f ∈ fields [] line, ∀ x, stoi minInt64 maxInt64 f ≠ .ok x) ∨ idx = n)) ∨
        ((∃ row, CountLine n line row) ∧ ∃ pre line' rest ms, lines = pre ++ line' :: rest ∧
          Pointwise (CountLine n) pre ms ∧ (fields [] line').length = n ∧
          ((∃ f ∈ fields [] line', ∀ x, stoi minInt64 maxInt64 f ≠ .ok x) ∨
            idx + 1 + pre.length = n)) := by
      constructor
      · rintro ⟨pre, line', rest, ms, h1, h2, h3, h4⟩
        cases h2 with
        | nil =>
          simp only [List.nil_append, List.cons.injEq] at h1
          obtain ⟨rfl, rfl⟩ := h1
          exact .inl ⟨h3, h4⟩
        | @cons a s as ss hv hp =>
          simp only [List.cons_append, List.cons.injEq] at h1
          obtain ⟨rfl, rfl⟩ := h1
          refine .inr ⟨⟨s, hv⟩, as, line', rest, ss, rfl, hp, h3, h4.imp id fun h => ?_⟩
          simp only [List.length_cons] at h; omega
      · rintro (⟨h3, h4⟩ | ⟨⟨s, hv⟩, pre, line', rest, ms, h1, h2, h3, h4⟩)
        · exact ⟨[], line, lines, [], rfl, .nil, h3, by simpa using h4⟩
        · refine ⟨line :: pre, line', rest, s :: ms, by rw [h1]; rfl, .cons hv h2, h3, h4.imp id fun h => ?_⟩
          simp only [List.length_cons]; omega
    rw [hcons]
    simp only [countLoop]
    split
    · next he =>
      subst he
      constructor
      · rintro ⟨e, h⟩; cases h
      · rintro (⟨h3, _⟩ | ⟨⟨row, h3, _⟩, _⟩) <;> (simp [fields] at h3; omega)
    · split
      · next hne =>
        constructor
        · rintro ⟨e, h⟩; cases h
        · rintro (⟨h3, _⟩ | ⟨⟨row, h3, _⟩, _⟩) <;> exact absurd h3 hne
      · next heq =>
        have heq : (fields [] line).length = n := Classical.not_not.1 heq
        have hfne : fields [] line ≠ [] := by intro h; rw [h] at heq; simp at heq; omega
        have herr := countRow_error (fs := fields [] line) (idx := idx) (norm := norm) (row := [])
        cases hrow : countRow idx norm [] (fields [] line) with
        | error e =>
          simp only [error_bind]
          refine ⟨fun _ => .inl ⟨heq, ?_⟩, fun _ => ⟨e, rfl⟩⟩
          rcases herr.1 ⟨e, hrow⟩ with h | ⟨_, h⟩
          · exact .inl h
          · exact .inr (by omega)
        | ok r =>
          simp only [ok_bind]
          have hno : ¬ ((∃ f ∈ fields [] line, ∀ x, stoi minInt64 maxInt64 f ≠ .ok x) ∨
              (fields [] line ≠ [] ∧ norm.length ≤ idx)) := by
            intro h
            obtain ⟨e, he⟩ := herr.2 h
            rw [hrow] at he; cases he
          have hlt : idx < norm.length := by
            apply Classical.byContradiction
            intro h; exact hno (.inr ⟨hfne, by omega⟩)
          have hlen : r.2.length = n := by
            obtain ⟨r1, r2⟩ := r
            obtain ⟨cs, _, _, h⟩ := (countRow_iff hlt).1 hrow
            rw [h]; simpa using hnorm
          rw [ih hlen (by omega)]
          constructor
          · intro h
            exact .inr ⟨countLine_of_row hlt heq hrow, h⟩
          · rintro (⟨_, h | h⟩ | ⟨_, h⟩)
            · exact absurd (.inl h) hno
            · omega
            · exact h

theorem finish_error {utf8 norm : List Int} {counts : List (List Int)}
    (hs : utf8.Pairwise (· < ·)) (hm : ∀ u ∈ utf8, u ≤ maxInt32) :
    (∃ e, finishRead utf8 norm counts = .error e) ↔ utf8 = [] ∨ maxInt32 ∈ utf8 := by
  by_cases hne : utf8 = []
  · subst hne
    exact ⟨fun _ => .inl rfl, fun _ => ⟨.ub, rfl⟩⟩
  by_cases hmx : maxInt32 ∈ utf8
  · refine ⟨fun _ => .inr hmx, fun _ => ⟨.ub, ?_⟩⟩
    unfold finishRead
    simp only
    cases hb : utf8.getLast? with
    | none => exact absurd (List.getLast?_eq_none_iff.1 hb) hne
    | some b =>
      simp only
      have : maxInt32 ≤ b := by
        obtain ⟨ys, rfl⟩ := List.getLast?_eq_some_iff.1 hb
        rcases List.mem_append.1 hmx with h | h
        · have := (List.pairwise_append.1 hs).2.2 _ h b (by simp); omega
        · simp only [List.mem_singleton] at h; omega
      rw [if_pos this]
  · constructor
    · rintro ⟨e, h⟩
      obtain ⟨r, h'⟩ := finish_total (norm := norm) (counts := counts) hne (fun u hu => by
        have := hm u hu
        have : u ≠ maxInt32 := fun e => hmx (e ▸ hu)
        omega)
      rw [h'] at h; cases h
    · rintro (h | h)
      · exact absurd h hne
      · exact absurd h hmx

theorem vocab_le {lines : List Str} {us : List Int} (h : Pointwise VocabLine lines us) :
    ∀ u ∈ us, u ≤ maxInt32 := by
  induction h with
  | nil => simp
  | cons hv _ ih =>
    intro u hu
    rcases List.mem_cons.1 hu with rfl | hu
    · obtain ⟨f, _, hx⟩ := hv
      exact (stoi_range hx).2
    · exact ih u hu

/-- C19, the rest of the characterisation: `Read` does not return at all – an uncaught exception or
undefined behaviour – exactly on the inputs described by `Crashes`.  On every input that is neither
described (`C19_read_accepts_described`) nor one of these it reports an error. -/
theorem C19_crashes_exactly {v c : FileArg} : (∃ e, read v c = .error e) ↔ Crashes v c := by
  cases v with
  | absent =>
    constructor
    · rintro ⟨e, h⟩
      have hd : defaultVocab ≠ [] := by unfold defaultVocab; simp
      obtain ⟨r, hr⟩ := finish_total (utf8 := defaultVocab) (norm := []) (counts := []) hd
        fun u hu => (default_nonneg u hu).2
      simp only [read] at h
      rw [hr] at h; cases h
    · intro h; cases h
  | named v =>
    cases v with
    | none =>
      constructor
      · rintro ⟨e, h⟩; simp [read, readVocabSymbols] at h
      · intro h; cases h
    | some vb =>
      simp only [read, readVocabSymbols]
      have herr := vocabLoop_error (lines := getLines [] vb) (last := -1) (acc := [])
      cases hvoc : vocabLoop (-1) [] (getLines [] vb) with
      | error e =>
        simp only [error_bind]
        refine ⟨fun _ => ?_, fun _ => ⟨e, rfl⟩⟩
        obtain ⟨pre, line, rest, f, syms, h1, h2, h3, h4, h5⟩ := herr.1 ⟨e, hvoc⟩
        exact .vocabField h1 h2 h3 h4 h5
      | ok o =>
        have hnov : ¬ ∃ pre line rest f syms, getLines [] vb = pre ++ line :: rest ∧
            Pointwise VocabLine pre syms ∧ ((-1) :: syms).Pairwise (· < ·) ∧ fields [] line = [f] ∧
            ∀ x, stoi minInt32 maxInt32 f ≠ .ok x := by
          intro h
          obtain ⟨e, he⟩ := herr.2 h
          rw [hvoc] at he; cases he
        have hfile : ∀ us, VocabFile vb us → o = some us := by
          intro us ⟨h1, _, h3, h4⟩
          have := vocabLoop_iff (lines := getLines [] vb) (last := -1) (acc := []) (r := us)
          have h5 := this.2 ⟨us, h1, List.pairwise_cons.2 ⟨fun a ha => by have := h4 a ha; omega, h3⟩, rfl⟩
          rw [hvoc] at h5; cases h5; rfl
        have hempty : getLines [] vb = [] → o = some [] := by
          intro h
          rw [h] at hvoc; cases hvoc; rfl
        simp only [ok_bind]
        cases o with
        | none =>
          constructor
          · rintro ⟨e, h⟩; cases h
          · intro h
            cases h with
            | vocabField h1 h2 h3 h4 h5 => exact absurd ⟨_, _, _, _, _, h1, h2, h3, h4, h5⟩ hnov
            | noSymbol h1 => cases hempty h1
            | largest h1 => cases hfile _ h1
            | countField h1 => cases hfile _ h1
            | extraRow h1 => cases hfile _ h1
        | some utf8 =>
          obtain ⟨us, p1, p2, p3⟩ := vocabLoop_iff.1 hvoc
          simp only [List.nil_append] at p3
          subst p3
          have p2' := List.pairwise_cons.1 p2
          have hle := vocab_le p1
          have hfile' : utf8 ≠ [] → VocabFile vb utf8 := fun h =>
            ⟨p1, h, p2'.2, fun u hu => by have := p2'.1 u hu; omega⟩
          have hlines : utf8 = [] ↔ getLines [] vb = [] := by
            have := p1.length_eq
            constructor
            · rintro rfl; exact List.length_eq_zero_iff.1 this
            · intro h; rw [h] at this; exact List.length_eq_zero_iff.1 this.symm
          cases c with
          | absent =>
            simp only
            rw [finish_error p2'.2 hle]
            constructor
            · rintro (h | h)
              · exact .noSymbol (hlines.1 h) (fun b hb => by cases hb)
              · exact .largest (hfile' (List.ne_nil_of_mem h)) h (fun b hb => by cases hb)
            · intro h
              cases h with
              | vocabField h1 h2 h3 h4 h5 => exact absurd ⟨_, _, _, _, _, h1, h2, h3, h4, h5⟩ hnov
              | noSymbol h1 => exact .inl (hlines.2 h1)
              | largest h1 h2 =>
                have := hfile _ h1
                cases this; exact .inr h2
          | named c =>
            simp only
            cases c with
            | none =>
              simp only [readCountMatrix, ok_bind]
              constructor
              · rintro ⟨e, h⟩; cases h
              · intro h
                cases h with
                | vocabField h1 h2 h3 h4 h5 => exact absurd ⟨_, _, _, _, _, h1, h2, h3, h4, h5⟩ hnov
                | noSymbol _ h2 => obtain ⟨_, h, _⟩ := h2 none rfl; cases h
                | largest _ _ h3 => obtain ⟨_, _, h, _⟩ := h3 none rfl; cases h
            | some cb =>
              simp only [readCountMatrix]
              by_cases hne : utf8 = []
              · -- no symbol
                subst hne
                simp only [List.length_nil, List.replicate_zero]
                have hrow : ∀ (lines : List Str) (idx : Nat) (mat : List (List Int)),
                    countLoop 0 idx [] mat lines = .ok none ∨
                    ∃ m, countLoop 0 idx [] mat lines = .ok (some (idx + lines.length, [], m)) := by
                  intro lines
                  induction lines with
                  | nil => intro idx mat; exact .inr ⟨mat, rfl⟩
                  | cons line lines ih =>
                    intro idx mat
                    simp only [countLoop]
                    split
                    · exact .inl rfl
                    · split
                      · exact .inl rfl
                      · next hl =>
                        have hl : fields [] line = [] :=
                          List.length_eq_zero_iff.1 (Classical.not_not.1 hl)
                        rw [hl]
                        simp only [countRow, ok_bind]
                        rcases ih (idx + 1) (mat ++ [[]]) with h | ⟨m, h⟩
                        · exact .inl h
                        · refine .inr ⟨m, ?_⟩
                          rw [h, List.length_cons, show idx + 1 + lines.length = idx + (lines.length + 1) by omega]
                have hiff : (∃ e, (do
                    let x ← (do
                      let x ← countLoop 0 0 [] [] (getLines [] cb)
                      match x with
                      | none => Except.ok none
                      | some (idx, norm, mat) => if idx ≠ 0 then .ok none else .ok (some (norm, mat)))
                    match x with
                    | none => Except.ok none
                    | some (norm, counts) => finishRead [] norm counts) = .error e) ↔
                    getLines [] cb = [] := by
                  constructor
                  · rintro ⟨e, h⟩
                    rcases hrow (getLines [] cb) 0 [] with h' | ⟨m, h'⟩
                    · rw [h'] at h; simp at h
                    · rw [h'] at h
                      simp only [ok_bind] at h
                      split at h
                      · simp at h
                      · next hz => exact List.length_eq_zero_iff.1 (by omega)
                  · intro h
                    rw [h]
                    exact ⟨.ub, rfl⟩
                refine Iff.trans hiff ?_
                constructor
                · intro h
                  exact .noSymbol (hlines.1 rfl) (fun b hb => by cases hb; exact ⟨cb, rfl, h⟩)
                · intro h
                  cases h with
                  | vocabField h1 h2 h3 h4 h5 => exact absurd ⟨_, _, _, _, _, h1, h2, h3, h4, h5⟩ hnov
                  | noSymbol _ h2 =>
                    obtain ⟨bytes, h3, h4⟩ := h2 _ rfl
                    cases h3; exact h4
                  | largest h1 => cases hfile _ h1; exact absurd rfl h1.2.1
                  | countField h1 => cases hfile _ h1; exact absurd rfl h1.2.1
                  | extraRow h1 => cases hfile _ h1; exact absurd rfl h1.2.1
              · have hn : 0 < utf8.length := List.length_pos_iff.2 hne
                have hvf := hfile' hne
                have hce := countLoop_error hn (lines := getLines [] cb) (idx := 0)
                  (norm := List.replicate utf8.length 0) (mat := []) (by simp) (by omega)
                cases hcl : countLoop utf8.length 0 (List.replicate utf8.length 0) []
                    (getLines [] cb) with
                | error e =>
                  simp only [error_bind]
                  refine ⟨fun _ => ?_, fun _ => ⟨e, rfl⟩⟩
                  obtain ⟨pre, line, rest, ms, h1, h2, h3, ⟨f, h4, h5⟩ | h4⟩ := hce.1 ⟨e, hcl⟩
                  · exact .countField hvf h1 h2 h3 h4 h5
                  · exact .extraRow hvf h1 h2 (by omega) h3
                | ok o =>
                  have hnoc : ¬ ∃ pre line rest ms, getLines [] cb = pre ++ line :: rest ∧
                      Pointwise (CountLine utf8.length) pre ms ∧ (fields [] line).length = utf8.length ∧
                      ((∃ f ∈ fields [] line, ∀ x, stoi minInt64 maxInt64 f ≠ .ok x) ∨
                        0 + pre.length = utf8.length) := by
                    intro h
                    obtain ⟨e, he⟩ := hce.2 h
                    rw [hcl] at he; cases he
                  have back : Crashes (.named (some vb)) (.named (some cb)) →
                      maxInt32 ∈ utf8 ∧ ∃ mat, CountFile utf8.length cb mat := by
                    intro h
                    cases h with
                    | vocabField h1 h2 h3 h4 h5 =>
                      exact absurd ⟨_, _, _, _, _, h1, h2, h3, h4, h5⟩ hnov
                    | noSymbol h1 => exact absurd (hlines.2 h1) hne
                    | largest h1 h2 h3 =>
                      cases hfile _ h1
                      obtain ⟨bytes, mat, h4, h5⟩ := h3 _ rfl
                      cases h4; exact ⟨h2, mat, h5⟩
                    | countField h1 h2 h3 h4 h5 h6 =>
                      cases hfile _ h1
                      exact absurd ⟨_, _, _, _, h2, h3, h4, .inl ⟨_, h5, h6⟩⟩ hnoc
                    | extraRow h1 h2 h3 h4 h5 =>
                      cases hfile _ h1
                      exact absurd ⟨_, _, _, _, h2, h3, h5, .inr (by omega)⟩ hnoc
                  simp only [ok_bind]
                  cases o with
                  | none =>
                    simp only [ok_bind]
                    constructor
                    · rintro ⟨e, h⟩; cases h
                    · intro h
                      obtain ⟨_, mat, hm1, hm2⟩ := back h
                      have := (countLoop_iff hn (lines := getLines [] cb) (idx := 0)
                        (k := mat.length) (norm := List.replicate utf8.length 0) (mat := [])
                        (nrm := (List.range utf8.length).map fun i => ((mat[i]?).getD []).sum)
                        (r := mat) (by simp)).2 ⟨mat, hm1, by omega, by simp, .inr (by omega),
                          by simp, ?_⟩
                      · rw [hcl] at this; cases this
                      · intro i
                        by_cases hi : i < utf8.length
                        · simp [List.getElem?_replicate, hi]
                        · simp [List.getElem?_replicate, hi]
                  | some p =>
                    obtain ⟨k, nrm, mat⟩ := p
                    obtain ⟨ms, q1, q2, q3, q4, _⟩ := (countLoop_iff hn (by simp)).1 hcl
                    simp only [List.nil_append, Nat.zero_add] at q2 q3
                    subst q3
                    by_cases hk : k = utf8.length
                    · simp only [hk, ne_eq, not_true_eq_false, if_false, ok_bind]
                      rw [finish_error p2'.2 hle]
                      constructor
                      · rintro (h | h)
                        · exact absurd h hne
                        · exact .largest hvf h (fun b hb => by
                            cases hb; exact ⟨cb, mat, rfl, q1, by omega⟩)
                      · intro h; exact .inr (back h).1
                    · simp only [hk, ne_eq, not_false_eq_true, if_true, ok_bind]
                      constructor
                      · rintro ⟨e, h⟩; cases h
                      · intro h
                        obtain ⟨_, mat', hm1, hm2⟩ := back h
                        have h1 := q1.length_eq
                        have h2 := hm1.length_eq
                        omega

end Mozolm.Bigram
