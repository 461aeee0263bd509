import Verif.Ppm.TrainText
import Verif.Ppm.ReadLemmas

/-! # The symbols and label sequences of the lines of a text -/

namespace Mozolm.Ppm

/-- the reserved symbol -/
def epsilonName : Str := [60, 101, 112, 115, 105, 108, 111, 110, 62]

theorem epsilonTable_eq : epsilonTable = [(0, epsilonName)] := rfl

theorem findLabel_append {t l : SymbolTable} {c : Str} (h : c ∈ t.map Prod.snd) : (t ++ l).findLabel c = t.findLabel c := by
  obtain ⟨e, he, hc⟩ := List.mem_map.mp h
  unfold SymbolTable.findLabel
  rw [List.find?_append]
  cases hf : t.find? (fun e => e.2 == c) with
  | none =>
    rw [List.find?_eq_none] at hf
    exact absurd (by simp [hc]) (hf e he)
  | some e' => rfl

theorem findLabel_of_mem {t : SymbolTable} (hn : (t.map Prod.snd).Nodup) {k : Int} {c : Str} (h : (k, c) ∈ t) :
    t.findLabel c = k := by
  unfold SymbolTable.findLabel
  cases hf : t.find? (fun e => e.2 == c) with
  | none =>
    rw [List.find?_eq_none] at hf
    exact absurd (by simp) (hf _ h)
  | some e =>
    have hm := List.mem_of_find?_eq_some hf
    have he : e.2 = c := by have := List.find?_some hf; simpa using this
    have : e = (k, c) := List.inj_on_of_nodup_map hn hm h he
    rw [this]

section
variable {t : SymbolTable} {V : Nat}

theorem Dense.find_eps (h : Dense t V) (hk : ∃ l, t = epsilonTable ++ l) : t.findLabel epsilonName = 0 := by
  refine findLabel_of_mem h.nodup ?_
  obtain ⟨l, rfl⟩ := hk
  simp [epsilonTable_eq]

theorem Dense.find_pos (h : Dense t V) (hk : ∃ l, t = epsilonTable ++ l) {c : Str} (hc : c ∈ t.map Prod.snd)
    (hne : c ≠ epsilonName) : 0 < t.findLabel c := by
  obtain ⟨⟨k, c'⟩, he, rfl⟩ := List.mem_map.mp hc
  simp only at hne ⊢
  rw [findLabel_of_mem h.nodup he]
  have h0 := (h.label_range he).1
  simp only at h0
  rcases Int.lt_or_eq_of_le h0 with h1 | h1
  · exact h1
  · exfalso
    subst h1
    have hn : (t.map Prod.fst).Nodup := by
      rw [h.labels]
      exact List.nodup_range.map (fun a b e => by simpa using e)
    obtain ⟨l, rfl⟩ := hk
    have := List.inj_on_of_nodup_map hn he (y := (0, epsilonName)) (by simp [epsilonTable_eq]) rfl
    exact hne (congrArg Prod.snd this)

theorem getSymsVector_ok : ∀ (cs : List Str) {t : SymbolTable} {V : Nat}, Dense t V → (∃ l, t = epsilonTable ++ l) →
    epsilonName ∉ cs → ∃ (t' : SymbolTable) (V' : Nat), getSymsVector cs t = pure (cs.map t'.findLabel, t') ∧
      Extended t t' V V' cs := by
  intro cs
  induction cs with
  | nil => intro t V h _ _; exact ⟨t, V, rfl, ⟨h, by omega, ⟨[], by simp⟩, by simp⟩⟩
  | cons c cs ih =>
    intro t V h hk hne
    obtain ⟨hne1, hne2⟩ := not_or.mp (fun e => hne (List.mem_cons.mpr e))
    have hstep : ∃ (t1 : SymbolTable) (V1 : Nat), (if t.findLabel c < 0 then t ++ [(nextLabel t, c)] else t) = t1 ∧
        Extended t t1 V V1 [c] := by
      by_cases hc : t.findLabel c < 0
      · rw [if_pos hc, h.next]
        rw [h.find_neg] at hc
        exact ⟨_, V + 1, rfl, ⟨h.add hc, by omega, ⟨_, rfl⟩, by simp⟩⟩
      · rw [if_neg hc]
        rw [h.find_neg, Classical.not_not] at hc
        refine ⟨t, V, rfl, ⟨h, by omega, ⟨[], by simp⟩, ?_⟩⟩
        intro x
        constructor
        · exact .inl
        · rintro (h | h)
          · exact h
          · rw [List.mem_singleton.mp h]; exact hc
    obtain ⟨t1, V1, h1, h2⟩ := hstep
    have hk1 : ∃ l, t1 = epsilonTable ++ l := by
      obtain ⟨l, rfl⟩ := hk
      obtain ⟨l', hl'⟩ := h2.kept
      exact ⟨l ++ l', by rw [hl', List.append_assoc]⟩
    have hmem : c ∈ t1.map Prod.snd := (h2.symbols c).mpr (.inr (by simp))
    have hpos := h2.dense.find_pos hk1 hmem (fun e => hne1 e.symm)
    obtain ⟨t', V', h3, h4⟩ := ih h2.dense hk1 hne2
    refine ⟨t', V', ?_, h2.trans h4⟩
    unfold getSymsVector
    simp only
    rw [h1, if_neg (by omega), h3, Res.pure_bind]
    obtain ⟨l, hl⟩ := h4.kept
    rw [List.map_cons, hl, findLabel_append hmem]

theorem getSymsVector_fail : ∀ (cs : List Str) {t : SymbolTable} {V : Nat}, Dense t V → (∃ l, t = epsilonTable ++ l) →
    epsilonName ∈ cs → getSymsVector cs t = .fail := by
  intro cs
  induction cs with
  | nil => intro t V _ _ h; cases h
  | cons c cs ih =>
    intro t V h hk hm
    unfold getSymsVector
    simp only
    by_cases hc : c = epsilonName
    · subst hc
      have e0 : ¬ t.findLabel epsilonName < 0 := by rw [h.find_eps hk]; omega
      rw [if_neg e0, if_pos (by rw [h.find_eps hk])]
    · have hm' : epsilonName ∈ cs := by
        rcases List.mem_cons.mp hm with e | e
        · exact absurd e.symm hc
        · exact e
      obtain ⟨t1, V1, h1, h2⟩ := getSymsVector_ok [c] h hk (by simpa using fun e => hc e.symm)
      unfold getSymsVector at h1
      simp only at h1
      by_cases hn : (if t.findLabel c < 0 then t ++ [(nextLabel t, c)] else t).findLabel c ≤ 0
      · rw [if_pos hn] at h1; cases h1
      · rw [if_neg hn] at h1 ⊢
        unfold getSymsVector at h1
        rw [Res.pure_bind] at h1
        have := Res.pure_inj h1
        have ht : (if t.findLabel c < 0 then t ++ [(nextLabel t, c)] else t) = t1 := congrArg Prod.snd this
        rw [ht]
        have hk1 : ∃ l, t1 = epsilonTable ++ l := by
          obtain ⟨l, rfl⟩ := hk
          obtain ⟨l', hl'⟩ := h2.kept
          exact ⟨l ++ l', by rw [hl', List.append_assoc]⟩
        rw [ih h2.dense hk1 hm']; rfl

/-- The label sequences of the lines that are not empty. -/
def labelLines (t : SymbolTable) (lines : List (List Str)) : List (List Int) :=
  (lines.filter fun l => !l.isEmpty).map fun l => l.map t.findLabel

theorem encodeLines_ok : ∀ (ls : List (List Str)) {t : SymbolTable} {V : Nat}, Dense t V → (∃ l, t = epsilonTable ++ l) →
    epsilonName ∉ ls.flatten → ∃ (t' : SymbolTable) (V' : Nat), encodeLines ls t = pure (labelLines t' ls, t') ∧
      Extended t t' V V' ls.flatten := by
  intro ls
  induction ls with
  | nil => intro t V h _ _; exact ⟨t, V, rfl, ⟨h, by omega, ⟨[], by simp⟩, by simp⟩⟩
  | cons l ls ih =>
    intro t V h hk hne
    rw [List.flatten_cons, List.mem_append, not_or] at hne
    unfold encodeLines
    by_cases hl : l = []
    · rw [if_pos hl]
      obtain ⟨t', V', h1, h2⟩ := ih h hk hne.2
      refine ⟨t', V', ?_, by rw [List.flatten_cons, hl]; exact h2⟩
      rw [h1, hl]; simp [labelLines]
    · rw [if_neg hl]
      obtain ⟨t1, V1, h1, h2⟩ := getSymsVector_ok l h hk hne.1
      have hk1 : ∃ l, t1 = epsilonTable ++ l := by
        obtain ⟨l, rfl⟩ := hk
        obtain ⟨l', hl'⟩ := h2.kept
        exact ⟨l ++ l', by rw [hl', List.append_assoc]⟩
      obtain ⟨t', V', h3, h4⟩ := ih h2.dense hk1 hne.2
      refine ⟨t', V', ?_, by rw [List.flatten_cons]; exact h2.trans h4⟩
      rw [h1, Res.pure_bind]
      simp only
      rw [h3, Res.pure_bind]
      simp only
      have hlb : l.isEmpty = false := by cases l with
        | nil => exact absurd rfl hl
        | cons _ _ => rfl
      unfold labelLines
      rw [List.filter_cons, hlb]
      simp only [Bool.not_false, if_true, List.map_cons]
      congr 2
      congr 1
      refine List.map_congr_left fun c hc => ?_
      obtain ⟨l', hl'⟩ := h4.kept
      rw [hl', findLabel_append ((h2.symbols c).mpr (.inr hc))]

theorem encodeLines_fail : ∀ (ls : List (List Str)) {t : SymbolTable} {V : Nat}, Dense t V → (∃ l, t = epsilonTable ++ l) →
    epsilonName ∈ ls.flatten → encodeLines ls t = .fail := by
  intro ls
  induction ls with
  | nil => intro t V _ _ h; cases h
  | cons l ls ih =>
    intro t V h hk hm
    unfold encodeLines
    rw [List.flatten_cons, List.mem_append] at hm
    by_cases hl : l = []
    · rw [if_pos hl]
      exact ih h hk (hm.resolve_left (by rw [hl]; simp))
    · rw [if_neg hl]
      by_cases hml : epsilonName ∈ l
      · rw [getSymsVector_fail l h hk hml]; rfl
      · obtain ⟨t1, V1, h1, h2⟩ := getSymsVector_ok l h hk hml
        have hk1 : ∃ l, t1 = epsilonTable ++ l := by
          obtain ⟨l, rfl⟩ := hk
          obtain ⟨l', hl'⟩ := h2.kept
          exact ⟨l ++ l', by rw [hl', List.append_assoc]⟩
        rw [h1, Res.pure_bind]
        simp only
        rw [ih h2.dense hk1 (hm.resolve_left hml)]; rfl

/-- The symbols of a text: those of its characters, numbered from 1 on. -/
structure Symbols (lines : List (List Str)) (t : SymbolTable) (V : Nat) : Prop where
  dense : Dense t V
  kept : ∃ l, t = epsilonTable ++ l
  symbols : ∀ c, c ∈ t.map Prod.snd ↔ c = epsilonName ∨ c ∈ lines.flatten
  proper : epsilonName ∉ lines.flatten

theorem encode_symbols {lines : List (List Str)} (h : epsilonName ∉ lines.flatten) :
    ∃ (t : SymbolTable) (V : Nat), encodeLines lines epsilonTable = pure (labelLines t lines, t) ∧ Symbols lines t V := by
  obtain ⟨t, V, h1, h2⟩ := encodeLines_ok lines epsilonTable_dense ⟨[], by simp⟩ h
  refine ⟨t, V, h1, h2.dense, ?_, ?_, h⟩
  · obtain ⟨l, hl⟩ := h2.kept; exact ⟨l, hl⟩
  · intro c
    rw [h2.symbols, epsilonTable_eq]
    simp

variable {lines : List (List Str)}

theorem Symbols.label (h : Symbols lines t V) {c : Str} (hc : c ∈ lines.flatten) :
    0 < t.findLabel c ∧ t.findLabel c ≤ V :=
  ⟨h.dense.find_pos h.kept ((h.symbols c).mpr (.inr hc)) (fun e => h.proper (e ▸ hc)), h.dense.find_le c⟩

theorem mem_labelLines {w : List Int} : w ∈ labelLines t lines ↔ ∃ l ∈ lines, l ≠ [] ∧ w = l.map t.findLabel := by
  unfold labelLines
  simp only [List.mem_map, List.mem_filter, Bool.not_eq_true', List.isEmpty_eq_false_iff]
  constructor
  · rintro ⟨l, ⟨h1, h2⟩, rfl⟩; exact ⟨l, h1, h2, rfl⟩
  · rintro ⟨l, h1, h2, rfl⟩; exact ⟨l, ⟨h1, h2⟩, rfl⟩

theorem Symbols.range (h : Symbols lines t V) : ∀ w ∈ labelLines t lines, ∀ x ∈ w, 0 < x ∧ x ≤ V := by
  intro w hw x hx
  obtain ⟨l, h1, h2, rfl⟩ := mem_labelLines.mp hw
  obtain ⟨c, hc, rfl⟩ := List.mem_map.mp hx
  exact h.label (List.mem_flatten.mpr ⟨l, h1, hc⟩)

theorem Symbols.onto (h : Symbols lines t V) {y : Int} (h1 : 1 ≤ y) (h2 : y ≤ V) : ∃ w ∈ labelLines t lines, y ∈ w := by
  have hy : y ∈ t.map Prod.fst := by
    rw [h.dense.labels, List.mem_map]
    exact ⟨y.toNat, List.mem_range.mpr (by omega), by omega⟩
  obtain ⟨⟨k, c⟩, he, rfl⟩ := List.mem_map.mp hy
  have hfind := findLabel_of_mem h.dense.nodup he
  have hne : c ≠ epsilonName := by
    rintro rfl
    rw [h.dense.find_eps h.kept] at hfind
    simp only at h1; omega
  have hc := ((h.symbols c).mp (List.mem_map.mpr ⟨_, he, rfl⟩)).resolve_left hne
  obtain ⟨l, hl1, hl2⟩ := List.mem_flatten.mp hc
  refine ⟨l.map t.findLabel, mem_labelLines.mpr ⟨l, hl1, List.ne_nil_of_mem hl2, rfl⟩, ?_⟩
  exact List.mem_map.mpr ⟨c, hl2, hfind⟩

theorem Symbols.textOk (h : Symbols lines t V) {order : Nat} (ho : 2 ≤ order) (hne : ∃ l ∈ lines, l ≠ []) :
    TextOk order (labelLines t lines) := by
  refine ⟨ho, fun w hw x hx => (h.range w hw x hx).1, ?_⟩
  obtain ⟨l, h1, h2⟩ := hne
  exact ⟨l.map t.findLabel, mem_labelLines.mpr ⟨l, h1, h2, rfl⟩, by simpa using h2⟩

end
end Mozolm.Ppm
