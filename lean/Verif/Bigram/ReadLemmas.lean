import Verif.Bigram.Spec

/-! # Bigram: reading -/

namespace Mozolm.Bigram

theorem fields_ne {line : Str} (h : fields [] line ≠ []) : line ≠ [] := by
  rintro rfl; exact h rfl

theorem vocabLoop_iff {lines : List Str} : ∀ {last : Int} {acc r : List Int},
    vocabLoop last acc lines = .ok (some r) ↔
      ∃ us, Pointwise VocabLine lines us ∧ (last :: us).Pairwise (· < ·) ∧ r = acc ++ us := by
  induction lines with
  | nil =>
    intro last acc r
    simp only [vocabLoop, Except.ok.injEq, Option.some.injEq]
    constructor
    · rintro rfl; exact ⟨[], .nil, by simp, by simp⟩
    · rintro ⟨us, h, _, h2⟩
      cases h; simpa using h2.symm
  | cons line lines ih =>
    intro last acc r
    constructor
    · intro h
      simp only [vocabLoop] at h
      split at h
      · cases h
      · split at h
        · next f hf =>
          obtain ⟨sym, e1, h⟩ := bind_ok.1 h
          split at h
          · cases h
          · next hlt =>
            obtain ⟨us, h1, h2, h3⟩ := ih.1 h
            refine ⟨sym :: us, .cons ⟨f, hf, e1⟩ h1, ?_, by rw [h3]; simp⟩
            rw [List.pairwise_cons] at h2 ⊢
            refine ⟨?_, List.pairwise_cons.2 h2⟩
            intro a ha
            rcases List.mem_cons.1 ha with rfl | ha
            · omega
            · have := h2.1 a ha; omega
        · cases h
    · rintro ⟨us, h1, h2, h3⟩
      cases h1 with
      | cons hv h1 =>
        next sym us =>
        obtain ⟨f, hf, e1⟩ := hv
        simp only [vocabLoop]
        rw [if_neg (fields_ne (by rw [hf]; simp)), hf]
        simp only [e1, ok_bind]
        rw [List.pairwise_cons] at h2
        rw [if_neg (by have := h2.1 sym (by simp); omega)]
        exact ih.2 ⟨us, h1, h2.2, by rw [h3]; simp⟩

/-- Add `n` at position `idx`. -/
def addAt (l : List Int) (idx : Nat) (n : Int) : List Int := l.modify idx (· + n)

theorem countRow_iff {fs : List Str} {idx : Nat} : ∀ {norm row r nrm : List Int},
    idx < norm.length →
    (countRow idx norm row fs = .ok (r, nrm) ↔
      ∃ cs, Pointwise (fun f c => ∃ x, stoi minInt64 maxInt64 f = .ok x ∧ c = if 1 < x then x else 1)
        fs cs ∧ r = row ++ cs ∧ nrm = norm.modify idx (· + cs.sum)) := by
  induction fs with
  | nil =>
    intro norm row r nrm hlt
    simp only [countRow, Except.ok.injEq, Prod.mk.injEq]
    have hid : norm.modify idx (· + ([] : List Int).sum) = norm := by
      apply List.ext_getElem?
      intro k
      rw [List.getElem?_modify]
      cases norm[k]? <;> simp
    constructor
    · rintro ⟨rfl, rfl⟩; exact ⟨[], .nil, by simp, hid.symm⟩
    · rintro ⟨cs, h, h1, h2⟩
      cases h; rw [hid] at h2; exact ⟨by simpa using h1.symm, h2.symm⟩
  | cons f fs ih =>
    intro norm row r nrm hlt
    obtain ⟨x0, hx0⟩ := exists_getElem?_of_lt hlt
    have hmod : ∀ (c : Int) (cs : List Int),
        (norm.set idx (x0 + c)).modify idx (· + cs.sum) = norm.modify idx (· + (c :: cs).sum) := by
      intro c cs
      apply List.ext_getElem?
      intro k
      rw [List.getElem?_modify, List.getElem?_modify, List.getElem?_set]
      by_cases hk : idx = k
      · subst hk
        simp [hlt, hx0]
        have : norm[idx] = x0 := by
          have := List.getElem?_eq_getElem hlt
          rw [hx0] at this; exact (Option.some.inj this).symm
        omega
      · simp [hk]
    constructor
    · intro h
      simp only [countRow] at h
      obtain ⟨x, e1, h⟩ := bind_ok.1 h
      rw [hx0] at h
      obtain ⟨cs, h1, h2, h3⟩ := (ih (by simpa using hlt)).1 h
      exact ⟨_ :: cs, .cons ⟨x, e1, rfl⟩ h1, by rw [h2]; simp, by rw [h3, hmod]⟩
    · rintro ⟨cs, h1, h2, h3⟩
      cases h1 with
      | cons hv h1 =>
        next c cs =>
        obtain ⟨x, e1, rfl⟩ := hv
        simp only [countRow, e1, ok_bind, hx0]
        exact (ih (by simpa using hlt)).2 ⟨cs, h1, by rw [h2]; simp, by rw [h3, hmod]⟩

/-- reading a row past the normalizers never succeeds -/
theorem countRow_past {fs : List Str} {idx : Nat} {norm row r nrm : List Int} (hne : fs ≠ [])
    (hge : norm.length ≤ idx) : countRow idx norm row fs ≠ .ok (r, nrm) := by
  cases fs with
  | nil => exact absurd rfl hne
  | cons f fs =>
    intro h
    simp only [countRow] at h
    obtain ⟨x, e1, h⟩ := bind_ok.1 h
    rw [List.getElem?_eq_none hge] at h
    cases h

theorem norm_step (norm row : List Int) (ms : List (List Int)) (idx i : Nat) :
    ((norm.modify idx (· + row.sum))[i]?).map
        (fun x => x + (if idx + 1 ≤ i then ((ms[i - (idx + 1)]?).getD []).sum else 0)) =
      (norm[i]?).map
        fun x => x + (if idx ≤ i then (((row :: ms)[i - idx]?).getD []).sum else 0) := by
  rw [List.getElem?_modify]
  cases norm[i]? with
  | none => rfl
  | some x =>
    simp only [Option.map_eq_map, Option.map_some, Option.some.injEq]
    rcases Nat.lt_trichotomy i idx with hi | hi | hi
    · simp [show ¬ idx = i by omega, show ¬ idx + 1 ≤ i by omega, show ¬ idx ≤ i by omega]
    · subst hi
      simp [show ¬ i + 1 ≤ i by omega]
    · rw [if_pos (by omega : idx ≤ i), show i - idx = (i - (idx + 1)) + 1 by omega,
        List.getElem?_cons_succ]
      simp [show ¬ idx = i by omega, show idx + 1 ≤ i by omega]

theorem countLoop_iff {rows : Nat} (hr : 0 < rows) {lines : List Str} :
    ∀ {idx k : Nat} {norm nrm : List Int} {mat r : List (List Int)}, norm.length = rows →
    (countLoop rows idx norm mat lines = .ok (some (k, nrm, r)) ↔
      ∃ ms, Pointwise (CountLine rows) lines ms ∧ k = idx + ms.length ∧ r = mat ++ ms ∧
        (ms = [] ∨ k ≤ rows) ∧ nrm.length = rows ∧ ∀ (i : Nat),
          nrm[i]? = (norm[i]?).map fun x => x + (if idx ≤ i then ((ms[i - idx]?).getD []).sum else 0)) := by
  induction lines with
  | nil =>
    intro idx k norm nrm mat r hn
    simp only [countLoop, Except.ok.injEq, Option.some.injEq, Prod.mk.injEq]
    constructor
    · rintro ⟨rfl, rfl, rfl⟩
      refine ⟨[], .nil, by simp, by simp, .inl rfl, hn, fun i => ?_⟩
      simp
    · rintro ⟨ms, h, h1, h2, _, _, h3⟩
      cases h
      refine ⟨by simpa using h1.symm, ?_, by simpa using h2.symm⟩
      apply List.ext_getElem?
      intro i
      rw [h3 i]
      cases norm[i]? <;> simp
  | cons line lines ih =>
    intro idx k norm nrm mat r hn
    constructor
    · intro h
      simp only [countLoop] at h
      split at h
      · cases h
      · split at h
        · cases h
        · next hlen =>
          have hlen : (fields [] line).length = rows := by simpa using hlen
          obtain ⟨⟨row, nrm1⟩, e1, h⟩ := bind_ok.1 h
          have hlt : idx < norm.length := by
            rcases Nat.lt_or_ge idx norm.length with h' | h'
            · exact h'
            · refine absurd e1 (countRow_past ?_ h')
              intro h0; rw [h0] at hlen; simp at hlen; omega
          obtain ⟨cs, c1, c2, c3⟩ := (countRow_iff hlt).1 e1
          simp only [List.nil_append] at c2
          subst c2; subst c3
          obtain ⟨ms, m1, m2, m3, m4, m5, m6⟩ := (ih (by simpa using hn)).1 h
          refine ⟨row :: ms, .cons ⟨hlen, c1⟩ m1, by rw [m2, List.length_cons]; omega,
            by rw [m3]; simp, .inr ?_, m5, fun i => ?_⟩
          · rcases m4 with rfl | m4
            · rw [m2]; simp; omega
            · exact m4
          · rw [m6 i, norm_step]
    · rintro ⟨ms, m1, m2, m3, m4, m5, m6⟩
      cases m1 with
      | cons hv m1 =>
        next row ms =>
        have hk : k ≤ rows := by rcases m4 with h | h; cases h; exact h
        have hlt : idx < norm.length := by rw [m2, List.length_cons] at hk; omega
        simp only [countLoop]
        have hne : fields [] line ≠ [] := by
          intro h0; have := hv.1; rw [h0, List.length_nil] at this; omega
        rw [if_neg (fields_ne hne), if_neg (fun h => h hv.1),
          (countRow_iff (r := row) (row := []) hlt).2 ⟨row, hv.2, by simp, rfl⟩]
        simp only [ok_bind]
        refine (ih (by simpa using hn)).2 ⟨ms, m1, by rw [m2, List.length_cons]; omega,
          by rw [m3]; simp, .inr hk, m5, fun i => ?_⟩
        rw [m6 i, norm_step]

theorem indexLoop_some {us : List Int} : ∀ {i : Nat} {vocab : List Int},
    us.Pairwise (· < ·) → (∀ u ∈ us, 0 ≤ u ∧ u < vocab.length) →
    ∃ v, indexLoop i vocab us = some v ∧ v.length = vocab.length ∧ ∀ c : Nat,
      v[c]? = match us.idxOf? (c : Int) with
        | some j => some ((i + j : Nat) : Int)
        | none => vocab[c]? := by
  induction us with
  | nil => intro i vocab _ _; exact ⟨vocab, rfl, rfl, fun c => by simp⟩
  | cons u us ih =>
    intro i vocab hp hu
    obtain ⟨h0, h1⟩ := hu u (by simp)
    rw [List.pairwise_cons] at hp
    obtain ⟨v, e1, e2, e3⟩ := ih (i := i + 1) (vocab := vocab.set u.toNat (i : Int)) hp.2
      (fun w hw => by rw [List.length_set]; exact hu w (by simp [hw]))
    refine ⟨v, ?_, by simpa using e2, fun c => ?_⟩
    · simp only [indexLoop]
      rw [if_neg (by omega), if_neg (by omega), e1]
    · rw [e3 c, List.idxOf?_cons]
      by_cases hc : u = (c : Int)
      · subst hc
        have : us.idxOf? (c : Int) = none := by
          rw [List.idxOf?_eq_none_iff]
          intro hm
          have := hp.1 _ hm; omega
        rw [this]
        simp only [beq_self_eq_true, if_true]
        rw [List.getElem?_set]
        simp only [Int.toNat_natCast, if_true, Nat.add_zero]
        rw [if_pos (by omega)]
      · have hb : (u == (c : Int)) = false := by simpa using hc
        rw [hb]
        cases hx : us.idxOf? (c : Int) with
        | none =>
          simp only [Option.map_none, Bool.false_eq_true, if_false]
          rw [List.getElem?_set, if_neg (by omega)]
        | some j =>
          simp only [Option.map_some, Bool.false_eq_true, if_false]
          congr 2; omega

end Mozolm.Bigram
