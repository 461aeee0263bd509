import Verif.Bigram.Lemmas

/-! # Bigram: what a successful `Read` yields -/

namespace Mozolm.Bigram

theorem le_last {l : List Int} (hs : l.Pairwise (· < ·)) {b : Int} (hb : l.getLast? = some b) :
    ∀ u ∈ l, u ≤ b := by
  obtain ⟨l', rfl⟩ := List.getLast?_eq_some_iff.1 hb
  rw [List.pairwise_append] at hs
  intro u hu
  rcases List.mem_append.1 hu with h | h
  · exact Int.le_of_lt (hs.2.2 u h b (by simp))
  · simp at h; omega

theorem aux {lo hi v x : Int}
    (h : (if lo ≤ v ∧ v ≤ hi then Except.ok v else Except.error Fault.thrown) = .ok x) :
    lo ≤ x ∧ x ≤ hi := by
  by_cases h2 : lo ≤ v ∧ v ≤ hi
  · rw [if_pos h2] at h; cases h; exact h2
  · rw [if_neg h2] at h; cases h

theorem stoi_range {lo hi : Int} {s : Str} {x : Int} (h : stoi lo hi s = .ok x) :
    lo ≤ x ∧ x ≤ hi := by
  unfold stoi at h
  simp only at h
  generalize hds : List.takeWhile isDigit _ = ds at h
  by_cases h1 : ds = []
  · rw [if_pos h1] at h; cases h
  · rw [if_neg h1] at h
    exact aux h

/-- the counts and normalisers `Read` ends with, :118-126 -/
def dense (utf8 norm : List Int) (counts : List (List Int)) : List Int × List (List Int) :=
  if counts = [] then (List.replicate utf8.length (utf8.length : Int),
    List.replicate utf8.length (List.replicate utf8.length 1)) else (norm, counts)

theorem finish_ok {utf8 norm : List Int} {counts : List (List Int)} (hne : utf8 ≠ [])
    (hs : utf8.Pairwise (· < ·)) (h0 : ∀ u ∈ utf8, 0 ≤ u) (hm : ∀ u ∈ utf8, u < maxInt32) :
    ∃ m : Model, finishRead utf8 norm counts = .ok (some m) ∧ m.utf8 = utf8 ∧
      m.norm = (dense utf8 norm counts).1 ∧ m.counts = (dense utf8 norm counts).2 ∧
      ∀ c, nextState m 0 c = match position utf8 c with | some j => (j : Int) | none => -1 := by
  obtain ⟨b, hb⟩ : ∃ b, utf8.getLast? = some b := by
    cases hx : utf8.getLast? with
    | none => exact absurd (List.getLast?_eq_none_iff.1 hx) hne
    | some b => exact ⟨b, rfl⟩
  have hbm := List.mem_of_getLast? hb
  have hle := le_last hs hb
  have hb0 := h0 b hbm
  have hbM := hm b hbm
  obtain ⟨v, e1, e2, e3⟩ := indexLoop_some (i := 0) (vocab := List.replicate (b + 1).toNat (-1)) hs
    (fun u hu => by
      have := h0 u hu; have := hle u hu
      rw [List.length_replicate]; omega)
  refine ⟨⟨utf8, v, _, _⟩, ?_, rfl, rfl, rfl, ?_⟩
  · unfold finishRead
    simp only [hb]
    rw [if_neg (by omega), e1]
    rfl
  · intro c
    unfold nextState
    by_cases hc : 0 ≤ c
    · rw [if_pos hc, e3 c.toNat, show ((c.toNat : Nat) : Int) = c by omega]
      show _ = match position utf8 c with | some j => (j : Int) | none => -1
      unfold position
      cases hp : utf8.idxOf? c with
      | some j => simp
      | none =>
        simp only
        rw [List.getElem?_replicate]
        split <;> simp_all
    · rw [if_neg hc]
      have : position utf8 c = none := position_none.2 fun hm => hc (h0 c hm)
      rw [this]

theorem finish_some {utf8 norm : List Int} {counts : List (List Int)} {m : Model}
    (h : finishRead utf8 norm counts = .ok (some m)) (hs : utf8.Pairwise (· < ·)) :
    utf8 ≠ [] ∧ ∀ u ∈ utf8, u < maxInt32 := by
  unfold finishRead at h
  simp only at h
  split at h
  · cases h
  · next b hb =>
    split at h
    · cases h
    · next hlt =>
      refine ⟨fun h0 => (by rw [h0] at hb; cases hb), fun u hu => ?_⟩
      have := le_last hs hb u hu
      omega

/-- the vocabulary read from a file -/
theorem readVocab_iff {bytes : List Nat} {utf8 : List Int} :
    readVocabSymbols (some bytes) = .ok (some utf8) ↔
      Pointwise VocabLine (getLines [] bytes) utf8 ∧ utf8.Pairwise (· < ·) ∧ ∀ u ∈ utf8, 0 ≤ u := by
  unfold readVocabSymbols
  rw [vocabLoop_iff]
  simp only [List.pairwise_cons, List.nil_append]
  constructor
  · rintro ⟨us, h1, ⟨h2, h3⟩, rfl⟩
    exact ⟨h1, h3, fun u hu => by have := h2 u hu; omega⟩
  · rintro ⟨h1, h2, h3⟩
    exact ⟨utf8, h1, ⟨fun u hu => by have := h3 u hu; omega, h2⟩, rfl⟩

theorem readCounts_iff {bytes : List Nat} {n : Nat} (hn : 0 < n) {nrm : List Int}
    {mat : List (List Int)} :
    readCountMatrix (some bytes) n (List.replicate n 0) = .ok (some (nrm, mat)) ↔
      CountFile n bytes mat ∧ nrm.length = n ∧
        ∀ (i : Nat), nrm[i]? = if i < n then some ((mat[i]?.getD []).sum) else none := by
  have hmap : ∀ (ms : List (List Int)) (i : Nat),
      ((List.replicate n (0 : Int))[i]?).map
        (fun x => x + (if 0 ≤ i then ((ms[i - 0]?).getD []).sum else 0)) =
      if i < n then some ((ms[i]?.getD []).sum) else none := by
    intro ms i
    rw [List.getElem?_replicate, if_pos (Nat.zero_le i)]
    split <;> simp
  unfold readCountMatrix
  simp only
  constructor
  · intro h
    obtain ⟨r, e1, h⟩ := bind_ok.1 h
    cases r with
    | none => cases h
    | some p =>
      obtain ⟨idx, nr, mt⟩ := p
      simp only at h
      split at h
      · cases h
      · next hidx =>
        simp only [Except.ok.injEq, Option.some.injEq, Prod.mk.injEq] at h
        obtain ⟨rfl, rfl⟩ := h
        obtain ⟨ms, m1, m2, m3, m4, m5, m6⟩ := (countLoop_iff hn (by simp)).1 e1
        simp only [List.nil_append] at m3
        subst m3
        simp only [ne_eq, Decidable.not_not, Nat.zero_add] at hidx m2
        refine ⟨⟨m1, by omega⟩, m5, fun i => ?_⟩
        rw [m6 i, hmap]
  · rintro ⟨⟨h1, h2⟩, h3, h4⟩
    have := (countLoop_iff hn (lines := getLines [] bytes) (idx := 0) (k := n)
      (norm := List.replicate n 0) (nrm := nrm) (mat := []) (r := mat) (by simp)).2
      ⟨mat, h1, by omega, by simp, .inr (Nat.le_refl n), h3, fun i => by rw [h4 i, hmap]⟩
    rw [this]
    simp

theorem countLine_rows {n : Nat} {lines : List Str} {mat : List (List Int)}
    (h : Pointwise (CountLine n) lines mat) : ∀ row ∈ mat, row.length = n ∧
      ∀ c ∈ row, 1 ≤ c ∧ c ≤ maxInt64 := by
  induction h with
  | nil => simp
  | cons hv _ ih =>
    intro row hrow
    rcases List.mem_cons.1 hrow with rfl | hrow
    · obtain ⟨h1, h2⟩ := hv
      refine ⟨by rw [← h2.length_eq, h1], ?_⟩
      clear h1
      generalize fields [] _ = fs at h2
      have hlem : ∀ {fs : List Str} {r : List Int}, Pointwise (fun f c => ∃ x,
          stoi minInt64 maxInt64 f = .ok x ∧ c = if 1 < x then x else 1) fs r →
          ∀ c ∈ r, 1 ≤ c ∧ c ≤ maxInt64 := by
       intro fs r h2
       induction h2 with
       | nil => simp
       | cons hx _ ih2 =>
        intro c hc
        rcases List.mem_cons.1 hc with rfl | hc
        · obtain ⟨x, hx, rfl⟩ := hx
          have := stoi_range hx
          unfold maxInt64 at *
          split <;> omega
        · exact ih2 c hc
      exact hlem h2
    · exact ih row hrow

theorem sum_replicate_one (n : Nat) : (List.replicate n (1 : Int)).sum = n := by
  induction n with
  | zero => rfl
  | succ n ih => rw [List.replicate_succ, List.sum_cons, ih]; omega

theorem wf_of_parts {m : Model} (hne : m.utf8 ≠ []) (hs : m.utf8.Pairwise (· < ·))
    (h0 : ∀ u ∈ m.utf8, 0 ≤ u)
    (hidx : ∀ c, nextState m 0 c = match position m.utf8 c with | some j => (j : Int) | none => -1)
    (h : (m.norm = List.replicate m.utf8.length (m.utf8.length : Int) ∧
        m.counts = List.replicate m.utf8.length (List.replicate m.utf8.length 1)) ∨
      ((∀ row ∈ m.counts, row.length = m.utf8.length ∧ ∀ c ∈ row, 1 ≤ c ∧ c ≤ maxInt64) ∧
        m.counts.length = m.utf8.length ∧ m.norm.length = m.utf8.length ∧
        ∀ (i : Nat), m.norm[i]? =
          if i < m.utf8.length then some ((m.counts[i]?.getD []).sum) else none)) : WF m := by
  rcases h with ⟨hn, hc⟩ | ⟨hr, hl, hnl, hn⟩
  · refine ⟨hne, hs, h0, by rw [hn]; simp, by rw [hc]; simp, ?_, ?_, ?_, hidx⟩
    · intro row hrow; rw [hc] at hrow; rw [(List.mem_replicate.1 hrow).2]; simp
    · intro row hrow c hcr
      rw [hc] at hrow
      rw [(List.mem_replicate.1 hrow).2] at hcr
      rw [(List.mem_replicate.1 hcr).2]; unfold maxInt64; omega
    · intro i row hi
      rw [hc, List.getElem?_replicate] at hi
      rw [hn, List.getElem?_replicate]
      split at hi
      · next hlt =>
        rw [if_pos hlt]
        cases hi
        rw [sum_replicate_one]
      · cases hi
  · refine ⟨hne, hs, h0, hnl, hl, fun row hrow => (hr row hrow).1, fun row hrow => (hr row hrow).2,
      ?_, hidx⟩
    intro i row hi
    have hlt := lt_of_getElem?_eq_some hi
    rw [hn i, if_pos (by omega), hi]; rfl

theorem default_sorted : defaultVocab.Pairwise (· < ·) := by decide
theorem default_nonneg : ∀ u ∈ defaultVocab, (0 : Int) ≤ u ∧ u < maxInt32 := by decide
theorem default_length : defaultVocab.length = 28 := by decide

theorem read_describes {v c : FileArg} {m : Model} (h : read v c = .ok (some m)) :
    Describes v c m.utf8 m.counts ∧ ∀ u ∈ m.utf8, u < maxInt32 := by
  unfold read at h
  cases v with
  | absent =>
    simp only at h
    obtain ⟨m', e, u, n, k, -⟩ := finish_ok (utf8 := defaultVocab) (norm := []) (counts := [])
      (by decide) default_sorted (fun u hu => (default_nonneg u hu).1)
      (fun u hu => (default_nonneg u hu).2)
    rw [e] at h; cases h
    rw [u, k]
    exact ⟨.builtin c, fun u hu => (default_nonneg u hu).2⟩
  | named v =>
    simp only at h
    obtain ⟨r, e1, h2⟩ := bind_ok.1 h
    clear h
    cases r with
    | none => cases h2
    | some utf8 =>
      cases v with
      | none => cases e1
      | some bytes =>
        obtain ⟨p1, p2, p3⟩ := readVocab_iff.1 e1
        cases c with
        | absent =>
          simp only at h2
          obtain ⟨hne, hm⟩ := finish_some h2 p2
          obtain ⟨m', e, u, n, k, -⟩ := finish_ok (norm := List.replicate utf8.length 0)
            (counts := []) hne p2 p3 hm
          rw [e] at h2; cases h2
          rw [u, k]
          exact ⟨.uniform ⟨p1, hne, p2, p3⟩, hm⟩
        | named c =>
          simp only at h2
          obtain ⟨r, e2, h3⟩ := bind_ok.1 h2
          cases r with
          | none => cases h3
          | some p =>
            obtain ⟨nrm, mat⟩ := p
            simp only at h3
            obtain ⟨hne, hm⟩ := finish_some h3 p2
            have hn : 0 < utf8.length := List.length_pos_iff.2 hne
            cases c with
            | none => cases e2
            | some cb =>
              obtain ⟨c1, c2, c3⟩ := (readCounts_iff hn).1 e2
              have hmat : mat ≠ [] := by
                intro h0; have := c1.2; rw [h0] at this; simp at this; omega
              obtain ⟨m', e, u, n, k, -⟩ := finish_ok (norm := nrm)
                (counts := mat) hne p2 p3 hm
              rw [e] at h3; cases h3
              rw [u, k, dense, if_neg hmat]
              exact ⟨.counted ⟨p1, hne, p2, p3⟩ c1, hm⟩

/-- `Read` succeeds with exactly the described model. -/
theorem read_iff {v c : FileArg} {utf8 : List Int} {mat : List (List Int)} :
    (∃ m, read v c = .ok (some m) ∧ WF m ∧ m.utf8 = utf8 ∧ m.counts = mat) ↔
      Describes v c utf8 mat ∧ ∀ u ∈ utf8, u < maxInt32 := by
  constructor
  · rintro ⟨m, h, -, rfl, rfl⟩
    exact read_describes h
  · rintro ⟨h, hm⟩
    cases h with
    | builtin =>
      obtain ⟨m', e, u, n, k, i⟩ := finish_ok (utf8 := defaultVocab) (norm := []) (counts := [])
        (by decide) default_sorted (fun u hu => (default_nonneg u hu).1)
        (fun u hu => (default_nonneg u hu).2)
      refine ⟨m', e, ?_, u, k⟩
      apply wf_of_parts <;> rw [u]
      · decide
      · exact default_sorted
      · exact fun u hu => (default_nonneg u hu).1
      · exact i
      · exact .inl ⟨n, k⟩
    | uniform hv =>
      obtain ⟨p1, hne, p2, p3⟩ := hv
      next bytes =>
      obtain ⟨m', e, u, n, k, i⟩ := finish_ok (norm := List.replicate utf8.length 0)
        (counts := []) hne p2 p3 hm
      refine ⟨m', ?_, ?_, u, k⟩
      · unfold read
        simp only [readVocab_iff.2 ⟨p1, p2, p3⟩, ok_bind]
        exact e
      · apply wf_of_parts <;> rw [u]
        · exact hne
        · exact p2
        · exact p3
        · exact i
        · exact .inl ⟨n, k⟩
    | counted hv hc =>
      obtain ⟨p1, hne, p2, p3⟩ := hv
      next bytes cb =>
      have hn : 0 < utf8.length := List.length_pos_iff.2 hne
      have hmat : mat ≠ [] := by
        intro h0; have := hc.2; rw [h0] at this; simp at this; omega
      have hrows := countLine_rows hc.1
      let nrm := mat.map List.sum
      have hnl : nrm.length = utf8.length := by simp [nrm, hc.2]
      have hni : ∀ (i : Nat), nrm[i]? =
          if i < utf8.length then some ((mat[i]?.getD []).sum) else none := by
        intro i
        simp only [nrm, List.getElem?_map]
        split
        · next hi =>
          obtain ⟨r, hr⟩ := exists_getElem?_of_lt (l := mat) (i := i) (by rw [hc.2]; exact hi)
          simp [hr]
        · next hi => rw [List.getElem?_eq_none (by rw [hc.2]; omega)]; rfl
      obtain ⟨m', e, u, n, k, i⟩ := finish_ok (norm := nrm)
        (counts := mat) hne p2 p3 hm
      rw [dense, if_neg hmat] at n k
      refine ⟨m', ?_, ?_, u, k⟩
      · unfold read
        simp only [readVocab_iff.2 ⟨p1, p2, p3⟩, ok_bind]
        rw [(readCounts_iff hn).2 ⟨hc, hnl, hni⟩]
        exact e
      · apply wf_of_parts <;> rw [u]
        · exact hne
        · exact p2
        · exact p3
        · exact i
        · rw [n, k]
          exact .inr ⟨hrows, hc.2, hnl, hni⟩

/-- everything `Read` returns is well-formed -/
theorem read_wf {v c : FileArg} {m : Model} (h : read v c = .ok (some m)) : WF m := by
  obtain ⟨m', e, w, -, -⟩ := read_iff.2 (read_describes h)
  rw [h] at e; cases e; exact w

end Mozolm.Bigram
