import Verif.Bigram.Spec

/-!
# What lines, fields and numbers of a text file are

Independent descriptions of the three pieces of text input `Read` of the bigram model relies on
(`std::getline`, `absl::StrSplit(…, ' ', absl::SkipEmpty())`, `std::stoi`/`std::stol`), and proofs that the
model's functions meet them.
-/

namespace Mozolm.Bigram

/-- `IsLines bytes lines`: the file consists of these lines, each ended by a newline (byte 10), except
that the last, if not empty, need not be. -/
inductive IsLines : List Nat → List Str → Prop
  | nil : IsLines [] []
  | last {l : Str} : l ≠ [] → 10 ∉ l → IsLines l [l]
  | cons {l : Str} {rest : List Nat} {ls : List Str} : 10 ∉ l → IsLines rest ls →
      IsLines (l ++ 10 :: rest) (l :: ls)

/-- `IsFields line fs`: the fields of the line are its maximal runs of non-blanks (bytes other than
32). -/
inductive IsFields : Str → List Str → Prop
  | blank {sp : Str} : (∀ b ∈ sp, b = 32) → IsFields sp []
  | last {sp f : Str} : (∀ b ∈ sp, b = 32) → f ≠ [] → 32 ∉ f → IsFields (sp ++ f) [f]
  | cons {sp f rest : Str} {fs : List Str} : (∀ b ∈ sp, b = 32) → f ≠ [] → 32 ∉ f →
      IsFields rest fs → IsFields (sp ++ f ++ 32 :: rest) (f :: fs)

/-- The number a non-empty string of decimal digits denotes. -/
inductive Denotes : List Nat → Nat → Prop
  | one {d : Nat} : d < 10 → Denotes [48 + d] d
  | more {ds : List Nat} {n d : Nat} : Denotes ds n → d < 10 → Denotes (ds ++ [48 + d]) (10 * n + d)

/-- `IsNumber s v`: white space, an optional sign and decimal digits, denoting `v`; then anything that
does not start with a digit. -/
inductive IsNumber : Str → Int → Prop
  | plain {sp ds rest : Str} {n : Nat} : (∀ b ∈ sp, b = 32 ∨ (9 ≤ b ∧ b ≤ 13)) → Denotes ds n →
      (∀ d ∈ rest.head?, ¬ (48 ≤ d ∧ d ≤ 57)) → IsNumber (sp ++ ds ++ rest) n
  | plus {sp ds rest : Str} {n : Nat} : (∀ b ∈ sp, b = 32 ∨ (9 ≤ b ∧ b ≤ 13)) → Denotes ds n →
      (∀ d ∈ rest.head?, ¬ (48 ≤ d ∧ d ≤ 57)) → IsNumber (sp ++ 43 :: (ds ++ rest)) n
  | minus {sp ds rest : Str} {n : Nat} : (∀ b ∈ sp, b = 32 ∨ (9 ≤ b ∧ b ≤ 13)) → Denotes ds n →
      (∀ d ∈ rest.head?, ¬ (48 ≤ d ∧ d ≤ 57)) → IsNumber (sp ++ 45 :: (ds ++ rest)) (-n)

/-! ## lines -/

theorem getLines_of {bytes : List Nat} {ls : List Str} (h : IsLines bytes ls) :
    ∀ cur : Str, cur = [] → getLines cur bytes = ls := by
  have step : ∀ (l cur : Str) (rest : List Nat), 10 ∉ l →
      getLines cur (l ++ 10 :: rest) = (cur ++ l) :: getLines [] rest := by
    intro l
    induction l with
    | nil => intro cur rest _; simp [getLines]
    | cons b l ih =>
      intro cur rest hb
      simp only [List.mem_cons, not_or] at hb
      rw [List.cons_append, getLines, if_neg (fun e => hb.1 e.symm), ih _ _ hb.2]
      simp
  have fin : ∀ (l cur : Str), 10 ∉ l → cur ++ l ≠ [] → getLines cur l = [cur ++ l] := by
    intro l
    induction l with
    | nil => intro cur _ h; simp only [List.append_nil] at h; simp [getLines, h]
    | cons b l ih =>
      intro cur hb _
      simp only [List.mem_cons, not_or] at hb
      rw [getLines, if_neg (fun e => hb.1 e.symm), ih _ hb.2 (by simp)]
      simp
  induction h with
  | nil => rintro _ rfl; rfl
  | last h1 h2 => rintro _ rfl; exact fin _ [] h2 (by simpa using h1)
  | cons h1 _ ih =>
    rintro _ rfl
    rw [step _ [] _ h1, ih [] rfl]
    simp

theorem isLines_getLines : ∀ (bytes : List Nat) (cur : Str), 10 ∉ cur →
    IsLines (cur ++ bytes) (getLines cur bytes)
  | [], cur, hc => by
    simp only [getLines, List.append_nil]
    split
    · next h => subst h; exact .nil
    · next h => exact .last h hc
  | b :: bs, cur, hc => by
    rw [getLines]
    split
    · next h =>
      subst h
      exact .cons hc (isLines_getLines bs [] (by simp))
    · next h =>
      have := isLines_getLines bs (cur ++ [b]) (by simp [hc, Ne.symm h])
      simpa using this

/-- **C19** every file splits into lines in exactly one way, the one the model computes -/
theorem C19_lines (bytes : List Nat) (ls : List Str) : IsLines bytes ls ↔ getLines [] bytes = ls :=
  ⟨fun h => getLines_of h [] rfl, fun h => h ▸ isLines_getLines bytes [] (by simp)⟩

/-! ## fields -/

theorem fields_blank : ∀ {sp : Str} (rest : Str), (∀ b ∈ sp, b = 32) →
    fields [] (sp ++ rest) = fields [] rest
  | [], _, _ => rfl
  | b :: sp, rest, h => by
    have hb : b = 32 := h b (by simp)
    rw [List.cons_append, fields, if_pos hb, if_pos rfl]
    exact fields_blank rest fun x hx => h x (by simp [hx])

theorem fields_run : ∀ (f cur rest : Str), 32 ∉ f → cur ++ f ≠ [] →
    fields cur (f ++ 32 :: rest) = (cur ++ f) :: fields [] rest
  | [], cur, rest, _, h => by
    simp only [List.append_nil] at h
    simp [fields, h]
  | b :: f, cur, rest, hb, _ => by
    simp only [List.mem_cons, not_or] at hb
    rw [List.cons_append, fields, if_neg (fun e => hb.1 e.symm), fields_run f _ rest hb.2 (by simp)]
    simp

theorem fields_end : ∀ (f cur : Str), 32 ∉ f → cur ++ f ≠ [] → fields cur f = [cur ++ f]
  | [], cur, _, h => by
    simp only [List.append_nil] at h
    simp [fields, h]
  | b :: f, cur, hb, _ => by
    simp only [List.mem_cons, not_or] at hb
    rw [fields, if_neg (fun e => hb.1 e.symm), fields_end f _ hb.2 (by simp)]
    simp

theorem fields_of {line : Str} {fs : List Str} (h : IsFields line fs) : fields [] line = fs := by
  induction h with
  | @blank sp h => have := fields_blank [] h; rw [List.append_nil] at this; rw [this]; rfl
  | last h1 h2 h3 => rw [fields_blank _ h1, fields_end _ [] h3 (by simpa using h2)]; rfl
  | cons h1 h2 h3 _ ih =>
    rw [List.append_assoc, fields_blank _ h1, fields_run _ [] _ h3 (by simpa using h2), ih]
    rfl

theorem isFields_blank {sp rest : Str} {fs : List Str} (h : ∀ b ∈ sp, b = 32)
    (hr : IsFields rest fs) : IsFields (sp ++ rest) fs := by
  have both : ∀ {sp' : Str}, (∀ b ∈ sp', b = 32) → ∀ b ∈ sp ++ sp', b = 32 := by
    intro sp' h' b hb
    rcases List.mem_append.1 hb with hb | hb
    · exact h b hb
    · exact h' b hb
  cases hr with
  | blank h' => exact .blank (both h')
  | last h1 h2 h3 => rw [← List.append_assoc]; exact .last (both h1) h2 h3
  | cons h1 h2 h3 h4 =>
    rw [← List.append_assoc, ← List.append_assoc]
    exact .cons (both h1) h2 h3 h4

theorem isFields_fields : ∀ (line cur : Str), 32 ∉ cur → IsFields (cur ++ line) (fields cur line)
  | [], cur, hc => by
    simp only [fields, List.append_nil]
    split
    · next h => subst h; exact .blank (by simp)
    · next h => exact .last (sp := []) (by simp) h hc
  | b :: bs, cur, hc => by
    rw [fields]
    split
    · next h =>
      subst h
      split
      · next h' =>
        subst h'
        exact isFields_blank (sp := [32]) (by simp) (isFields_fields bs [] (by simp))
      · next h' =>
        exact .cons (sp := []) (by simp) h' hc (isFields_fields bs [] (by simp))
    · next h =>
      have := isFields_fields bs (cur ++ [b]) (by simp [hc, Ne.symm h])
      simpa using this

/-- **C19** every line has its fields in exactly one way, the one the model computes -/
theorem C19_fields (line : Str) (fs : List Str) : IsFields line fs ↔ fields [] line = fs :=
  ⟨fields_of, fun h => h ▸ isFields_fields line [] (by simp)⟩

/-! ## numbers -/

theorem denotes_digits {ds : List Nat} {n : Nat} (h : Denotes ds n) :
    ds ≠ [] ∧ (∀ d ∈ ds, isDigit d = true) ∧ digitsVal ds = n := by
  induction h with
  | one h =>
    refine ⟨by simp, ?_, by simp [digitsVal]⟩
    intro d hd
    simp only [List.mem_singleton] at hd
    subst hd
    simp only [isDigit, Bool.and_eq_true, decide_eq_true_eq]
    omega
  | more _ hd ih =>
    obtain ⟨_, i2, i3⟩ := ih
    refine ⟨by simp, ?_, ?_⟩
    · intro d hd'
      rcases List.mem_append.1 hd' with h | h
      · exact i2 d h
      · simp only [List.mem_singleton] at h
        subst h
        simp only [isDigit, Bool.and_eq_true, decide_eq_true_eq]
        omega
    · simp only [digitsVal, List.foldl_append] at i3 ⊢
      rw [i3]
      simp

theorem denotes_append : ∀ (ds ds0 : List Nat) (n : Nat), Denotes ds0 n →
    (∀ d ∈ ds, isDigit d = true) →
    Denotes (ds0 ++ ds) (ds.foldl (fun a d => 10 * a + (d - 48)) n)
  | [], ds0, n, h, _ => by simpa using h
  | x :: ds, ds0, n, h, hd => by
    have hx := hd x (by simp)
    simp only [isDigit, Bool.and_eq_true, decide_eq_true_eq] at hx
    obtain ⟨d, rfl⟩ : ∃ d, x = 48 + d := ⟨x - 48, by omega⟩
    have := denotes_append ds _ _ (Denotes.more h (d := d) (by omega)) fun y hy => hd y (by simp [hy])
    simpa using this

theorem denotes_val (ds : List Nat) (d0 : Nat) (h : isDigit d0 = true)
    (hd : ∀ d ∈ ds, isDigit d = true) : Denotes (d0 :: ds) (digitsVal (d0 :: ds)) := by
  simp only [isDigit, Bool.and_eq_true, decide_eq_true_eq] at h
  obtain ⟨d, rfl⟩ : ∃ d, d0 = 48 + d := ⟨d0 - 48, by omega⟩
  have := denotes_append ds [48 + d] d (.one (by omega)) hd
  simpa [digitsVal] using this

theorem mem_takeWhile {p : Nat → Bool} : ∀ {l : Str} {b : Nat}, b ∈ l.takeWhile p → p b = true
  | [], _, h => by simp at h
  | c :: l, b, h => by
    rw [List.takeWhile] at h
    split at h
    · next hc =>
      rcases List.mem_cons.1 h with h | h
      · exact h ▸ hc
      · exact mem_takeWhile h
    · simp at h

theorem isSpace_iff (b : Nat) : isSpace b = true ↔ b = 32 ∨ (9 ≤ b ∧ b ≤ 13) := by
  simp [isSpace]

theorem isDigit_iff (b : Nat) : isDigit b = true ↔ 48 ≤ b ∧ b ≤ 57 := by
  simp [isDigit]

theorem dropWhile_append {p : Nat → Bool} : ∀ {sp rest : Str}, (∀ b ∈ sp, p b = true) →
    (∀ b ∈ rest.head?, p b = false) → (sp ++ rest).dropWhile p = rest
  | [], [], _, _ => rfl
  | [], b :: rest, _, h => by simp [h b (by simp)]
  | b :: sp, rest, h, h' => by
    rw [List.cons_append, List.dropWhile, h b (by simp)]
    exact dropWhile_append (fun x hx => h x (by simp [hx])) h'

theorem takeWhile_append {p : Nat → Bool} : ∀ {ds rest : Str}, (∀ b ∈ ds, p b = true) →
    (∀ b ∈ rest.head?, p b = false) → (ds ++ rest).takeWhile p = ds
  | [], [], _, _ => rfl
  | [], b :: rest, _, h => by simp [h b (by simp)]
  | b :: ds, rest, h, h' => by
    rw [List.cons_append, List.takeWhile, h b (by simp)]
    simp only [List.cons.injEq, true_and]
    exact takeWhile_append (fun x hx => h x (by simp [hx])) h'

/-- **C19** `stoi`/`stol` accept exactly the strings that start with a number in range (after white
space), and return it. -/
theorem C19_number (lo hi : Int) (s : Str) (v : Int) :
    stoi lo hi s = .ok v ↔ IsNumber s v ∧ lo ≤ v ∧ v ≤ hi := by
  constructor
  · intro h
    have hs : s = s.takeWhile isSpace ++ s.dropWhile isSpace := (List.takeWhile_append_dropWhile).symm
    have hsp : ∀ b ∈ s.takeWhile isSpace, b = 32 ∨ (9 ≤ b ∧ b ≤ 13) := fun b hb =>
      (isSpace_iff b).1 (mem_takeWhile hb)
    simp only [stoi] at h
    generalize s.takeWhile isSpace = sp at hs hsp
    generalize s.dropWhile isSpace = t at hs h
    subst hs
    have core : ∀ (u : Str) (neg : Bool) (w : Int),
        w = (if neg = true then -(digitsVal (u.takeWhile isDigit) : Int)
          else (digitsVal (u.takeWhile isDigit) : Int)) →
        (if u.takeWhile isDigit = [] then (Except.error Fault.thrown : Except Fault Int) else
          if lo ≤ w ∧ w ≤ hi then .ok w else .error .thrown) = .ok v →
        ∃ ds rest n, u = ds ++ rest ∧ Denotes ds n ∧ (∀ d ∈ rest.head?, ¬ (48 ≤ d ∧ d ≤ 57)) ∧
          v = (if neg = true then -(n : Int) else n) ∧ lo ≤ v ∧ v ≤ hi := by
      intro u neg w hw h
      split at h
      · cases h
      · next hne =>
        split at h
        · next hr =>
          simp only [Except.ok.injEq] at h
          refine ⟨u.takeWhile isDigit, u.dropWhile isDigit, digitsVal (u.takeWhile isDigit),
            (List.takeWhile_append_dropWhile).symm, ?_, ?_, h ▸ hw, h ▸ hr.1, h ▸ hr.2⟩
          · have hall : ∀ d ∈ u.takeWhile isDigit, isDigit d = true := fun d hd =>
              mem_takeWhile hd
            cases hds : u.takeWhile isDigit with
            | nil => exact absurd hds hne
            | cons d ds =>
              rw [hds] at hall
              exact denotes_val ds d (hall d (by simp)) fun x hx => hall x (by simp [hx])
          · intro d hd
            cases hdr : u.dropWhile isDigit with
            | nil => rw [hdr] at hd; simp at hd
            | cons x xs =>
              rw [hdr] at hd
              simp only [List.head?_cons, Option.mem_def, Option.some.injEq] at hd
              subst hd
              have hx : isDigit x = false := by
                have := List.head_dropWhile_not (l := u) isDigit (by rw [hdr]; simp)
                simpa [hdr] using this
              rw [← isDigit_iff, hx]
              simp
        · cases h
    cases t with
    | nil => simp at h
    | cons c t =>
      simp only [List.head?_cons, Option.some.injEq] at h
      by_cases h45 : c = 45
      · subst h45
        obtain ⟨ds, rest, n, e1, e2, e3, e4, e5⟩ := core t true _ rfl (by simpa using h)
        subst e1
        rw [e4]
        rw [e4] at e5
        exact ⟨.minus hsp e2 e3, e5⟩
      · by_cases h43 : c = 43
        · subst h43
          obtain ⟨ds, rest, n, e1, e2, e3, e4, e5⟩ := core t false _ rfl (by simpa using h)
          subst e1
          rw [e4]
          rw [e4] at e5
          exact ⟨.plus hsp e2 e3, e5⟩
        · obtain ⟨ds, rest, n, e1, e2, e3, e4, e5⟩ := core (c :: t) false _ rfl
            (by simpa [h45, h43] using h)
          rw [e1, ← List.append_assoc]
          rw [e4]
          rw [e4] at e5
          exact ⟨.plain hsp e2 e3, e5⟩
  · rintro ⟨h, hlo, hhi⟩
    have key : ∀ {ds rest : Str} {n : Nat}, Denotes ds n →
        (∀ d ∈ rest.head?, ¬ (48 ≤ d ∧ d ≤ 57)) →
        (ds ++ rest).takeWhile isDigit = ds ∧ ds ≠ [] ∧ digitsVal ds = n ∧
          ∃ d ds', ds = d :: ds' ∧ 48 ≤ d ∧ d ≤ 57 := by
      intro ds rest n hd hr
      obtain ⟨d1, d2, d3⟩ := denotes_digits hd
      refine ⟨takeWhile_append d2 fun b hb => ?_, d1, d3, ?_⟩
      · have := hr b hb
        rw [← isDigit_iff] at this
        simpa using this
      · cases ds with
        | nil => exact absurd rfl d1
        | cons d ds => exact ⟨d, ds, rfl, (isDigit_iff d).1 (d2 d (by simp))⟩
    cases h with
    | @plain sp ds rest n h1 h2 h3 =>
      obtain ⟨k1, k2, k3, d, ds', k4, k5, k6⟩ := key h2 h3
      have hd : (sp ++ ds ++ rest).dropWhile isSpace = ds ++ rest := by
        rw [List.append_assoc]
        refine dropWhile_append (fun b hb => (isSpace_iff b).2 (h1 b hb)) ?_
        intro b hb
        rw [k4] at hb
        simp only [List.cons_append, List.head?_cons, Option.mem_def, Option.some.injEq] at hb
        subst hb
        have : ¬ isSpace d = true := by rw [isSpace_iff]; omega
        simpa using this
      have hh : (ds ++ rest).head? = some d := by rw [k4]; rfl
      have n1 : (some d == some 45) = false := by simp; omega
      have n2 : ¬ (some d = some 45 ∨ some d = some 43) := by simp; omega
      simp only [stoi, hd, hh, n1, if_neg n2, k1, k2, if_false, Bool.false_eq_true, k3,
        if_pos (And.intro hlo hhi)]
    | @plus sp ds rest n h1 h2 h3 =>
      obtain ⟨k1, k2, k3, _⟩ := key h2 h3
      have hd : (sp ++ 43 :: (ds ++ rest)).dropWhile isSpace = 43 :: (ds ++ rest) := by
        refine dropWhile_append (fun b hb => (isSpace_iff b).2 (h1 b hb)) ?_
        intro b hb
        simp only [List.head?_cons, Option.mem_def, Option.some.injEq] at hb
        subst hb
        rfl
      have n1 : (some 43 == some 45) = false := rfl
      simp only [stoi, hd, List.head?_cons, n1, or_true, if_true, List.tail_cons, k1, k2, if_false,
        Bool.false_eq_true, k3, if_pos (And.intro hlo hhi)]
    | @minus sp ds rest n h1 h2 h3 =>
      obtain ⟨k1, k2, k3, _⟩ := key h2 h3
      have hd : (sp ++ 45 :: (ds ++ rest)).dropWhile isSpace = 45 :: (ds ++ rest) := by
        refine dropWhile_append (fun b hb => (isSpace_iff b).2 (h1 b hb)) ?_
        intro b hb
        simp only [List.head?_cons, Option.mem_def, Option.some.injEq] at hb
        subst hb
        rfl
      have n1 : (some 45 == some 45) = true := rfl
      simp only [stoi, hd, List.head?_cons, n1, true_or, if_true, List.tail_cons, k1, k2, if_false, k3,
        if_pos (And.intro hlo hhi)]

/-- **C19** a well-formed vocabulary file, spelled out: lines of one field, each field a number in the range
of `int`; at least one; non-negative and strictly increasing -/
theorem C19_vocab_file (bytes : List Nat) (utf8 : List Int) :
    VocabFile bytes utf8 ↔ ∃ lines, IsLines bytes lines ∧
      Pointwise (fun line c => ∃ f, IsFields line [f] ∧ IsNumber f c ∧ minInt32 ≤ c ∧ c ≤ maxInt32)
        lines utf8 ∧
      utf8 ≠ [] ∧ utf8.Pairwise (· < ·) ∧ ∀ u ∈ utf8, 0 ≤ u := by
  have e : (fun line c => ∃ f, IsFields line [f] ∧ IsNumber f c ∧ minInt32 ≤ c ∧ c ≤ maxInt32) =
      VocabLine := by
    funext line c
    simp only [VocabLine, C19_fields, C19_number]
  rw [e]
  constructor
  · exact fun h => ⟨_, (C19_lines _ _).2 rfl, h⟩
  · rintro ⟨lines, h1, h2⟩
    rw [C19_lines] at h1
    subst h1
    exact h2

/-- **C19** a well-formed count file, spelled out: `n` lines of `n` fields, each a number in the range of
`int64_t`; the count is the number, but at least one -/
theorem C19_count_file (n : Nat) (bytes : List Nat) (mat : List (List Int)) :
    CountFile n bytes mat ↔ mat.length = n ∧ ∃ lines, IsLines bytes lines ∧
      Pointwise (fun line row => row.length = n ∧ ∃ fs, IsFields line fs ∧
        Pointwise (fun f c => ∃ x, IsNumber f x ∧ minInt64 ≤ x ∧ x ≤ maxInt64 ∧ c = max x 1) fs row)
        lines mat := by
  have e : (fun line row => row.length = n ∧ ∃ fs, IsFields line fs ∧
      Pointwise (fun f c => ∃ x, IsNumber f x ∧ minInt64 ≤ x ∧ x ≤ maxInt64 ∧ c = max x 1) fs row) =
      CountLine n := by
    funext line row
    have e2 : (fun (f : Str) (c : Int) => ∃ x, IsNumber f x ∧ minInt64 ≤ x ∧ x ≤ maxInt64 ∧ c = max x 1) =
        fun f c => ∃ x, stoi minInt64 maxInt64 f = .ok x ∧ c = if 1 < x then x else 1 := by
      funext f c
      simp only [C19_number, and_assoc]
      refine propext (exists_congr fun x => and_congr_right fun _ => and_congr_right fun _ =>
        and_congr_right fun _ => ?_)
      have : max x 1 = if 1 < x then x else 1 := by split <;> omega
      rw [this]
    simp only [CountLine, C19_fields, e2, exists_eq_left']
    refine propext ⟨fun h => ⟨?_, h.2⟩, fun h => ⟨?_, h.2⟩⟩
    · have := h.2.length_eq; have := h.1; omega
    · have := h.2.length_eq; have := h.1; omega
  rw [e]
  constructor
  · exact fun h => ⟨h.2, _, (C19_lines _ _).2 rfl, h.1⟩
  · rintro ⟨h0, lines, h1, h2⟩
    rw [C19_lines] at h1
    subst h1
    exact ⟨h2, h0⟩

/-- " -12x" is read as -12 -/
example : IsNumber [32, 45, 49, 50, 120] (-12) :=
  ((C19_number (-100) 100 _ _).1 rfl).1

end Mozolm.Bigram
