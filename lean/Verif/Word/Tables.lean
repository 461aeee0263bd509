import Verif.Word.Order
import Verif.Word.States
import Mathlib.Data.List.Nodup
import Mathlib.Data.List.Perm.Basic

/-! # The lexicographic tables -/

namespace Mozolm.Word

/-! ## Symbol tables -/

theorem findLabel_of_mem {t : SymbolTable} (hn : (t.map Prod.snd).Nodup) {l : Int} {s : Str}
    (h : (l, s) ∈ t) : t.findLabel s = l := by
  have : t.find? (fun e => e.2 == s) = some (l, s) := by
    induction t with
    | nil => cases h
    | cons x t ih =>
      simp only [List.map_cons, List.nodup_cons] at hn
      rcases List.mem_cons.1 h with h | h
      · subst h; simp
      · have : (x.2 == s) = false := by
          simp only [beq_eq_false_iff_ne, ne_eq]
          intro e
          exact hn.1 (by rw [e]; exact List.mem_map.2 ⟨_, h, rfl⟩)
        simp only [List.find?_cons, this]
        exact ih hn.2 h
  simp only [SymbolTable.findLabel, this]

theorem findSymbol_of_mem {t : SymbolTable} (hn : (t.map Prod.fst).Nodup) {l : Int} {s : Str}
    (h : (l, s) ∈ t) : t.findSymbol l = s := by
  have : t.find? (fun e => e.1 == l) = some (l, s) := by
    induction t with
    | nil => cases h
    | cons x t ih =>
      simp only [List.map_cons, List.nodup_cons] at hn
      rcases List.mem_cons.1 h with h | h
      · subst h; simp
      · have : (x.1 == l) = false := by
          simp only [beq_eq_false_iff_ne, ne_eq]
          intro e
          exact hn.1 (by rw [e]; exact List.mem_map.2 ⟨_, h, rfl⟩)
        simp only [List.find?_cons, this]
        exact ih hn.2 h
  simp only [SymbolTable.findSymbol, this]

/-- The words of the vocabulary, sorted. -/
def sortedWords (t : SymbolTable) (oov : Int) : List Str :=
  (sortedSymbols t).filter fun w => t.findLabel w ≠ 0 ∧ t.findLabel w ≠ oov

theorem Dense.exists_name {t : SymbolTable} (h : Dense t) {l : Int} (h0 : 0 ≤ l) (h1 : l < t.length) :
    ∃ w, (l, w) ∈ t := by
  obtain ⟨⟨l', w⟩, h2, rfl⟩ := List.mem_map.1 ((h.labels l).2 ⟨h0, h1⟩)
  exact ⟨w, h2⟩

theorem Dense.range {t : SymbolTable} (h : Dense t) {l : Int} {w : Str} (hm : (l, w) ∈ t) :
    0 ≤ l ∧ l < t.length := (h.labels l).1 (List.mem_map.2 ⟨_, hm, rfl⟩)

theorem Dense.mem_sorted {t : SymbolTable} (h : Dense t) {w : Str} :
    w ∈ sortedSymbols t ↔ ∃ l, (l, w) ∈ t := by
  simp only [sortedSymbols, (sortStr_perm _).mem_iff, List.mem_map, List.mem_range]
  constructor
  · rintro ⟨i, hi, rfl⟩
    obtain ⟨v, hv⟩ := h.exists_name (l := i) (by omega) (by omega)
    exact ⟨i, by rw [findSymbol_of_mem h.keys hv]; exact hv⟩
  · rintro ⟨l, hl⟩
    obtain ⟨h1, h2⟩ := h.range hl
    refine ⟨l.toNat, by omega, ?_⟩
    rw [show ((l.toNat : Nat) : Int) = l by omega]
    exact findSymbol_of_mem h.keys hl

theorem Dense.nodup_sorted {t : SymbolTable} (h : Dense t) : (sortedSymbols t).Nodup := by
  simp only [sortedSymbols]
  rw [(sortStr_perm _).nodup_iff]
  apply List.Nodup.map_on _ List.nodup_range
  intro i hi j hj e
  rw [List.mem_range] at hi hj
  obtain ⟨v, hv⟩ := h.exists_name (l := i) (by omega) (by omega)
  obtain ⟨v', hv'⟩ := h.exists_name (l := j) (by omega) (by omega)
  rw [findSymbol_of_mem h.keys hv, findSymbol_of_mem h.keys hv'] at e
  subst e
  have := (findLabel_of_mem h.names hv).symm.trans (findLabel_of_mem h.names hv')
  omega

theorem Dense.sorted_lt {t : SymbolTable} (h : Dense t) : (sortedSymbols t).Pairwise (· < ·) := by
  have h1 : (sortedSymbols t).Pairwise (fun a b => strLe a b = true) :=
    sortStr_sorted _
  have h2 := h.nodup_sorted
  refine (h1.and h2).imp ?_
  rintro a b ⟨h1, h2⟩
  rw [strLe_iff] at h1
  rcases List.le_iff_lt_or_eq.1 h1 with h | h
  · exact h
  · exact absurd h h2

theorem Dense.mem_words {t : SymbolTable} (h : Dense t) {oov : Int} {w : Str} :
    w ∈ sortedWords t oov ↔ ∃ l, IsWord t oov l w := by
  simp only [sortedWords, List.mem_filter, h.mem_sorted, decide_eq_true_eq, IsWord]
  constructor
  · rintro ⟨⟨l, hl⟩, h1, h2⟩
    rw [findLabel_of_mem h.names hl] at h1 h2
    exact ⟨l, hl, h1, h2⟩
  · rintro ⟨l, hl, h1, h2⟩
    rw [findLabel_of_mem h.names hl]
    exact ⟨⟨l, hl⟩, h1, h2⟩

theorem Dense.words_sorted {t : SymbolTable} (h : Dense t) (oov : Int) :
    (sortedWords t oov).Pairwise (· < ·) := h.sorted_lt.filter _

theorem Dense.words_nodup {t : SymbolTable} (h : Dense t) (oov : Int) :
    (sortedWords t oov).Nodup := h.nodup_sorted.filter _

/-- How many words there are. -/
theorem Dense.words_length {t : SymbolTable} (h : Dense t) {oov : Int} (ho : IsUnknown t oov) :
    (sortedWords t oov).length + (if oov = -1 then 1 else 2) = t.length := by
  have hpos : 0 < t.length := List.length_pos_of_ne_nil h.nonempty
  obtain ⟨e, he⟩ := h.exists_name (l := 0) (by omega) (by omega)
  have hlen : (sortedSymbols t).length = t.length := by
    simp [sortedSymbols, (sortStr_perm _).length_eq]
  have hsplit : (sortedSymbols t).length = (sortedWords t oov).length +
      ((sortedSymbols t).filter fun w => !decide (t.findLabel w ≠ 0 ∧ t.findLabel w ≠ oov)).length := by
    rw [sortedWords]
    rw [← List.length_append]
    exact (List.filter_append_perm _ _).length_eq.symm
  have hnd := h.nodup_sorted.filter fun w => !decide (t.findLabel w ≠ 0 ∧ t.findLabel w ≠ oov)
  have hle := findLabel_of_mem h.names he
  by_cases hm : oov = -1
  · rw [if_pos hm]
    have : ((sortedSymbols t).filter fun w => !decide (t.findLabel w ≠ 0 ∧ t.findLabel w ≠ oov)).Perm
        [e] := by
      rw [List.perm_ext_iff_of_nodup hnd (by simp)]
      intro w
      simp only [List.mem_filter, h.mem_sorted, List.mem_singleton, Bool.not_eq_true',
        decide_eq_false_iff_not, Classical.not_and_iff_not_or_not, Classical.not_not]
      constructor
      · rintro ⟨⟨l, hl⟩, h1⟩
        rw [findLabel_of_mem h.names hl] at h1
        have := (h.range hl).1
        have : l = 0 := by omega
        subst this
        exact (findSymbol_of_mem h.keys hl).symm.trans (findSymbol_of_mem h.keys he)
      · rintro rfl
        exact ⟨⟨0, he⟩, .inl hle⟩
    have := this.length_eq
    simp only [List.length_cons, List.length_nil] at this
    omega
  · rw [if_neg hm]
    rcases ho with ho | ⟨ho, hom⟩
    · exact absurd ho hm
    obtain ⟨⟨o, u⟩, hu, rfl⟩ := List.mem_map.1 hom
    have hlu := findLabel_of_mem h.names hu
    have hne : e ≠ u := by
      rintro rfl
      rw [hle] at hlu
      simp only at ho hlu
      omega
    have : ((sortedSymbols t).filter fun w => !decide (t.findLabel w ≠ 0 ∧ t.findLabel w ≠ o)).Perm
        [e, u] := by
      rw [List.perm_ext_iff_of_nodup hnd (by simp [hne])]
      intro w
      simp only [List.mem_filter, h.mem_sorted, List.mem_cons, List.not_mem_nil, or_false,
        Bool.not_eq_true', decide_eq_false_iff_not, Classical.not_and_iff_not_or_not, Classical.not_not]
      constructor
      · rintro ⟨⟨l, hl⟩, h1⟩
        rw [findLabel_of_mem h.names hl] at h1
        rcases h1 with rfl | rfl
        · exact .inl ((findSymbol_of_mem h.keys hl).symm.trans (findSymbol_of_mem h.keys he))
        · exact .inr ((findSymbol_of_mem h.keys hl).symm.trans (findSymbol_of_mem h.keys hu))
      · rintro (rfl | rfl)
        · exact ⟨⟨0, he⟩, .inl hle⟩
        · exact ⟨⟨o, hu⟩, .inr hlu⟩
    have := this.length_eq
    simp only [List.length_cons, List.length_nil] at this
    simp only at hsplit ⊢
    omega

/-! ## Filling the tables -/

/-- Symbols that are not words are passed over. -/
theorem addWords_filter (t : SymbolTable) (oov : Int) (S : List Str) (T : Tables) (idx : Int)
    (last : List Str) :
    addWords t oov S T idx last =
      addWords t oov (S.filter fun w => t.findLabel w ≠ 0 ∧ t.findLabel w ≠ oov) T idx last := by
  induction S generalizing T idx last with
  | nil => rfl
  | cons w S ih =>
    by_cases h : t.findLabel w ≠ 0 ∧ t.findLabel w ≠ oov
    · rw [List.filter_cons_of_pos (by simpa using h)]
      simp only [addWords, if_pos h]
      cases addWord T idx last (t.findLabel w) w with
      | error e => rfl
      | ok T' => exact ih _ _ _
    · rw [List.filter_cons_of_neg (by simpa using h)]
      simp only [addWords, if_neg h]
      exact ih _ _ _

/-- Common prefix lengths of successive words. -/
def lcps : List Str → List Str → List Int
  | _, [] => []
  | last, w :: ws => (prefixMatch last (strSplitByChar w) : Int) :: lcps (strSplitByChar w) ws

/-- New first letters. -/
def newChars : List Str → List Str → List Str
  | _, [] => []
  | last, w :: ws =>
    if prefixMatch last (strSplitByChar w) = 0
    then (strSplitByChar w).headD [] :: newChars (strSplitByChar w) ws
    else newChars (strSplitByChar w) ws

/-- Ends of the ranges before new first letters. -/
def newEnds : Int → List Str → List Str → List Int
  | _, _, [] => []
  | idx, last, w :: ws =>
    if prefixMatch last (strSplitByChar w) = 0 ∧ idx > 1
    then (idx - 1) :: newEnds (idx + 1) (strSplitByChar w) ws
    else newEnds (idx + 1) (strSplitByChar w) ws

theorem set_splice {α : Type} (A : List α) (x y : α) (B : List α) :
    (A ++ x :: B).set A.length y = A ++ y :: B := by
  rw [List.set_append_right _ _ (Nat.le_refl _)]
  simp

theorem addWords_spec (t : SymbolTable) (oov : Int) (W : List Str) :
    ∀ (T : Tables) (i r : Nat) (last : List Str) (O P : List Int),
    (∀ w ∈ W, t.findLabel w ≠ 0 ∧ t.findLabel w ≠ oov) →
    (∀ w ∈ W, 0 ≤ t.findLabel w ∧ t.findLabel w < T.position.length) →
    (W.map t.findLabel).Nodup →
    O.length = i → P.length = i →
    T.order = O ++ List.replicate (W.length + r) 0 →
    T.prevPrefix = P ++ List.replicate (W.length + r) 0 →
    ∃ T', addWords t oov W T i last = .ok (T', ((i + W.length : Nat) : Int)) ∧
      T'.order = O ++ W.map t.findLabel ++ List.replicate r 0 ∧
      T'.prevPrefix = P ++ lcps last W ++ List.replicate r 0 ∧
      T'.firstChars = T.firstChars ++ newChars last W ∧
      T'.firstEnds = T.firstEnds ++ newEnds i last W ∧
      T'.position.length = T.position.length ∧
      (∀ (j : Nat) w, W[j]? = some w → T'.position[(t.findLabel w).toNat]? = some ((i + j : Nat) : Int)) ∧
      (∀ l : Nat, (∀ w ∈ W, t.findLabel w ≠ l) → T'.position[l]? = T.position[l]?) := by
  induction W with
  | nil =>
    intro T i r last O P _ _ _ _ _ hO hP
    refine ⟨T, rfl, by simpa using hO, by simpa [lcps] using hP, by simp [newChars],
      by simp [newEnds], rfl, by simp, by simp⟩
  | cons w W ih =>
    intro T i r last O P hkeep hrange hnd hOl hPl hO hP
    have hk := hkeep w (by simp)
    have hr := hrange w (by simp)
    simp only [addWords, if_pos hk]
    have hO' : T.order = O ++ 0 :: List.replicate (W.length + r) 0 := by
      rw [hO, show (w :: W).length + r = (W.length + r) + 1 by simp; omega, List.replicate_succ]
    have hP' : T.prevPrefix = P ++ 0 :: List.replicate (W.length + r) 0 := by
      rw [hP, show (w :: W).length + r = (W.length + r) + 1 by simp; omega, List.replicate_succ]
    have e1 : setI T.prevPrefix (i : Int) (prefixMatch last (strSplitByChar w) : Int) =
        .ok (P ++ (prefixMatch last (strSplitByChar w) : Int) :: List.replicate (W.length + r) 0) := by
      rw [setI_ok _ (by rw [hP']; simp [hPl]), hP', ← hPl, set_splice]
    have e2 : setI T.order (i : Int) (t.findLabel w) =
        .ok (O ++ t.findLabel w :: List.replicate (W.length + r) 0) := by
      rw [setI_ok _ (by rw [hO']; simp [hOl]), hO', ← hOl, set_splice]
    have hlab : t.findLabel w = (((t.findLabel w).toNat : Nat) : Int) := by omega
    have e3 : setI T.position (t.findLabel w) (i : Int) =
        .ok (T.position.set (t.findLabel w).toNat (i : Int)) := by
      rw [hlab, setI_ok _ (by omega), Int.toNat_natCast]
    simp only [addWord, e1, e2, e3, ok_bind]
    rw [List.map_cons, List.nodup_cons] at hnd
    obtain ⟨T', g1, g2, g3, g4, g5, g6, g7, g8⟩ := ih
      { order := O ++ t.findLabel w :: List.replicate (W.length + r) 0
        position := T.position.set (t.findLabel w).toNat (i : Int)
        prevPrefix := P ++ (prefixMatch last (strSplitByChar w) : Int) :: List.replicate (W.length + r) 0
        firstChars := if prefixMatch last (strSplitByChar w) = 0
          then T.firstChars ++ [(strSplitByChar w).headD []] else T.firstChars
        firstEnds := if prefixMatch last (strSplitByChar w) = 0 ∧ (i : Int) > 1
          then T.firstEnds ++ [(i : Int) - 1] else T.firstEnds }
      (i + 1) r (strSplitByChar w) (O ++ [t.findLabel w])
      (P ++ [(prefixMatch last (strSplitByChar w) : Int)])
      (fun x hx => hkeep x (by simp [hx]))
      (fun x hx => by simpa using hrange x (by simp [hx]))
      hnd.2 (by simp [hOl]) (by simp [hPl]) (by simp) (by simp)
    refine ⟨T', ?_, ?_, ?_, ?_, ?_, ?_, ?_, ?_⟩
    · have : ((i + 1 + W.length : Nat) : Int) = ((i + (w :: W).length : Nat) : Int) := by
        simp; omega
      rw [← this, ← g1]
      rfl
    · rw [g2]; simp
    · rw [g3]; simp [lcps]
    · rw [g4]
      simp only [newChars]
      split <;> simp
    · rw [g5]
      simp only [newEnds]
      push_cast
      split <;> simp
    · rw [g6]; simp
    · intro j x hx
      cases j with
      | zero =>
        simp only [List.getElem?_cons_zero, Option.some.injEq] at hx
        subst hx
        rw [g8 (t.findLabel w).toNat]
        · simp only [Nat.add_zero]
          rw [List.getElem?_set_self (by omega)]
        · intro y hy he
          exact hnd.1 (List.mem_map.2 ⟨y, hy, by omega⟩)
      | succ j =>
        rw [List.getElem?_cons_succ] at hx
        rw [g7 j x hx]
        congr 2
        omega
    · intro l hl
      rw [g8 l (fun x hx => hl x (by simp [hx]))]
      simp only
      rw [List.getElem?_set_ne]
      intro he
      exact hl w (by simp) (by omega)

/-! ## First letters -/

/-- The character shown for a next character, `none` being the end of the word. -/
def keyChar : Option Nat → Str
  | none => [32]
  | some c => [c]

/-- The words `ws`, the first of which has index `b`, divided into groups by their `k`-th character:
one character and one last index per group. -/
inductive Groups (k : Nat) : Nat → List Str → List Str → List Int → Prop
  | nil (b) : Groups k b [] [] []
  | cons {b : Nat} {g rest : List Str} {key : Option Nat} {chars : List Str} {ends : List Int} :
      g ≠ [] → (∀ w ∈ g, w[k]? = key) → (∀ w ∈ rest, w[k]? ≠ key) →
      Groups k (b + g.length) rest chars ends →
      Groups k b (g ++ rest) (keyChar key :: chars) ((((b + g.length : Nat) : Int) - 1) :: ends)

theorem first_key {u v : Str} (hne : u ≠ v) :
    prefixMatch (strSplitByChar u) (strSplitByChar v) = 0 ↔ u[0]? ≠ v[0]? := by
  have := lt_prefixMatch_iff (p := []) (u := u) (v := v) List.nil_prefix List.nil_prefix hne
  simp only [List.length_nil] at this
  rw [ne_eq, ← this]
  omega

theorem headD_keyChar {w : Str} (h : w ≠ []) : (strSplitByChar w).headD [] = keyChar w[0]? := by
  cases w with
  | nil => exact absurd rfl h
  | cons x w => rfl

/-- Words after a sorted group have other keys once one has. -/
theorem rest_key {p l w : Str} {g ws : List Str} (hs : (g ++ l :: w :: ws).Pairwise (· < ·))
    (hp : ∀ x ∈ l :: w :: ws, p <+: x) (hne : w[p.length]? ≠ l[p.length]?) :
    ∀ x ∈ w :: ws, x[p.length]? ≠ l[p.length]? := by
  have hs' := (List.pairwise_append.1 hs).2.1
  rw [List.pairwise_cons, List.pairwise_cons] at hs'
  intro x hx
  rcases List.mem_cons.1 hx with rfl | hx
  · exact hne
  · exact key_changes (hs'.1 w (by simp)) (hs'.2.1 x hx) (hp l (by simp)) (hp w (by simp))
      (hp x (by simp [hx])) hne

theorem groups_first (ws : List Str) : ∀ (g : List Str) (l : Str) (b i : Nat) (key : Option Nat),
    (g ++ l :: ws).Pairwise (· < ·) → (∀ w ∈ ws, w ≠ []) → (∀ w ∈ g, w[0]? = key) → l[0]? = key →
    1 ≤ b → i = b + (g.length + 1) →
    Groups 0 b (g ++ l :: ws) (keyChar key :: newChars (strSplitByChar l) ws)
      (newEnds i (strSplitByChar l) ws ++ [((i + ws.length : Nat) : Int) - 1]) := by
  induction ws with
  | nil =>
    intro g l b i key _ _ hg hl hb hi
    have h := Groups.cons (k := 0) (b := b) (g := g ++ [l]) (rest := []) (key := key) (chars := [])
      (ends := []) (by simp) (by
        intro w hw
        rcases List.mem_append.1 hw with hw | hw
        · exact hg w hw
        · rw [List.mem_singleton.1 hw]; exact hl) (by simp) (.nil _)
    have hi' : b + (g ++ [l]).length = i := by simp; omega
    rw [hi'] at h
    simpa [newChars, newEnds] using h
  | cons w ws ih =>
    intro g l b i key hs hne hg hl hb hi
    have hlw : l < w := by
      have := (List.pairwise_append.1 hs).2.1
      rw [List.pairwise_cons] at this
      exact this.1 w (by simp)
    have hlne : l ≠ w := fun h => List.lt_irrefl _ (h ▸ hlw)
    by_cases hm : prefixMatch (strSplitByChar l) (strSplitByChar w) = 0
    · have hk := (first_key hlne).1 hm
      simp only [newChars, newEnds, if_pos hm]
      rw [if_pos ⟨hm, by omega⟩, headD_keyChar (hne w (by simp))]
      have hrest := rest_key (p := []) hs (fun _ _ => List.nil_prefix) (fun h => hk h.symm)
      have h1 := ih [] w i (i + 1) w[0]? (by
          have := (List.pairwise_append.1 hs).2.1
          rw [List.pairwise_cons] at this
          simpa using this.2)
        (fun x hx => hne x (by simp [hx])) (by simp) rfl (by omega) (by simp)
      have h2 := Groups.cons (k := 0) (b := b) (g := g ++ [l]) (rest := w :: ws) (key := key) (by simp)
        (by
          intro x hx
          rcases List.mem_append.1 hx with hx | hx
          · exact hg x hx
          · rw [List.mem_singleton.1 hx]; exact hl)
        (by rw [← hl]; exact hrest)
        (by
          have : b + (g ++ [l]).length = i := by simp; omega
          rw [this]; exact h1)
      have hi' : b + (g ++ [l]).length = i := by simp; omega
      rw [hi'] at h2
      have e3 : ((i + 1 + ws.length : Nat) : Int) = ((i + (w :: ws).length : Nat) : Int) := by simp; omega
      rw [e3] at h2
      push_cast at h2 ⊢
      simpa using h2
    · have hk : l[0]? = w[0]? := by
        by_contra h
        exact hm ((first_key hlne).2 h)
      simp only [newChars, newEnds, if_neg hm]
      rw [if_neg (fun h => hm h.1)]
      have h1 := ih (g ++ [l]) w b (i + 1) key (by simpa using hs) (fun x hx => hne x (by simp [hx]))
        (by
          intro x hx
          rcases List.mem_append.1 hx with hx | hx
          · exact hg x hx
          · rw [List.mem_singleton.1 hx]; exact hl)
        (by rw [← hk]; exact hl) hb (by simp; omega)
      have e3 : ((i + 1 + ws.length : Nat) : Int) = ((i + (w :: ws).length : Nat) : Int) := by simp; omega
      rw [e3] at h1
      push_cast at h1 ⊢
      simpa using h1

/-- The groups of the first letters. -/
theorem groups_all {W : List Str} (hs : W.Pairwise (· < ·)) (hne : ∀ w ∈ W, w ≠ []) (h0 : W ≠ []) :
    Groups 0 1 W (newChars [[]] W) (newEnds 1 [[]] W ++ [((1 + W.length : Nat) : Int) - 1]) := by
  cases W with
  | nil => exact absurd rfl h0
  | cons w ws =>
    have hw := hne w (by simp)
    have hm : prefixMatch [[]] (strSplitByChar w) = 0 := by
      cases w with
      | nil => exact absurd rfl hw
      | cons x w => rfl
    simp only [newChars, newEnds, if_pos hm]
    rw [if_neg (by omega), headD_keyChar hw]
    have := groups_first ws [] w 1 2 w[0]? (by simpa using hs) (fun x hx => hne x (by simp [hx]))
      (by simp) rfl (by omega) rfl
    have e3 : ((2 + ws.length : Nat) : Int) = ((1 + (w :: ws).length : Nat) : Int) := by simp; omega
    rw [e3] at this
    simpa using this

/-! ## The whole construction -/

/-- What the tables of a dense vocabulary are, up to the entry overwritten when there is an unknown
word. -/
structure Built (t : SymbolTable) (oov : Int) (W : List Str) (T : Tables) : Prop where
  order : T.order = if oov = -1 then 0 :: W.map t.findLabel
    else (0 :: W.map t.findLabel ++ [oov]).set oov.toNat ((t.length : Int) - 1)
  prev : T.prevPrefix = if oov = -1 then 0 :: lcps [[]] W else 0 :: lcps [[]] W ++ [0]
  chars : T.firstChars = newChars [[]] W
  ends : T.firstEnds = newEnds 1 [[]] W ++ [((1 + W.length : Nat) : Int) - 1]
  plen : T.position.length = t.length
  pos : ∀ (j : Nat) w, W[j]? = some w → T.position[(t.findLabel w).toNat]? = some ((1 + j : Nat) : Int)
  pos' : ∀ l : Nat, l < t.length → (∀ w ∈ W, t.findLabel w ≠ l) → T.position[l]? = some 0

theorem findLabel_inj {t : SymbolTable} (hd : Dense t) {oov : Int} {u v : Str}
    (hu : u ∈ sortedWords t oov) (hv : v ∈ sortedWords t oov) (h : t.findLabel u = t.findLabel v) :
    u = v := by
  obtain ⟨l, h1, _⟩ := hd.mem_words.1 hu
  obtain ⟨l', h1', _⟩ := hd.mem_words.1 hv
  rw [findLabel_of_mem hd.names h1, findLabel_of_mem hd.names h1'] at h
  subst h
  exact (findSymbol_of_mem hd.keys h1).symm.trans (findSymbol_of_mem hd.keys h1')

theorem buildTables_spec {t : SymbolTable} (hd : Dense t) {oov : Int} (ho : IsUnknown t oov) :
    ∃ T, buildTables t oov = .ok (some T) ∧ Built t oov (sortedWords t oov) T := by
  have hpos : 0 < t.length := List.length_pos_of_ne_nil hd.nonempty
  have hlen := hd.words_length ho
  have hinit : initTables t.length = .ok
      { order := List.replicate t.length 0, position := List.replicate t.length 0,
        prevPrefix := List.replicate t.length 0, firstChars := [], firstEnds := [] } := by
    have : setI (List.replicate t.length (0 : Int)) 0 0 = .ok (List.replicate t.length 0) := by
      have := setI_ok (l := List.replicate t.length (0 : Int)) (i := 0) 0 (by simpa using hpos)
      simp only [Int.natCast_zero] at this
      rw [this, List.set_replicate_self]
    simp only [initTables, this, ok_bind]
  have hrep : List.replicate t.length (0 : Int) = [0] ++ List.replicate (t.length - 1) 0 := by
    cases hz : t.length with
    | zero => omega
    | succ n => simp [List.replicate_succ]
  obtain ⟨T1, g1, g2, g3, g4, g5, g6, g7, g8⟩ := addWords_spec t oov (sortedWords t oov)
    { order := List.replicate t.length 0, position := List.replicate t.length 0,
      prevPrefix := List.replicate t.length 0, firstChars := [], firstEnds := [] } 1
    (if oov = -1 then 0 else 1) [[]] [0] [0]
    (by
      intro w hw
      obtain ⟨l, h1, h2, h3⟩ := hd.mem_words.1 hw
      rw [findLabel_of_mem hd.names h1]
      exact ⟨h2, h3⟩)
    (by
      intro w hw
      obtain ⟨l, h1, h2, h3⟩ := hd.mem_words.1 hw
      rw [findLabel_of_mem hd.names h1]
      simpa using hd.range h1)
    (List.Nodup.map_on (fun u hu v hv h => findLabel_inj hd hu hv h) (hd.words_nodup oov))
    rfl rfl
    (by
      rw [hrep]
      congr 2
      split at hlen <;> simp_all <;> omega)
    (by
      rw [hrep]
      congr 2
      split at hlen <;> simp_all <;> omega)
  simp only [buildTables, hinit, ok_bind]
  rw [addWords_filter]
  simp only [Int.natCast_one] at g1
  have g1' : addWords t oov ((sortedSymbols t).filter fun w => t.findLabel w ≠ 0 ∧ t.findLabel w ≠ oov)
      { order := List.replicate t.length 0, position := List.replicate t.length 0,
        prevPrefix := List.replicate t.length 0, firstChars := [], firstEnds := [] } 1 [[]] =
      .ok (T1, ((1 + (sortedWords t oov).length : Nat) : Int)) := g1
  rw [g1']
  simp only [ok_bind]
  simp only [List.nil_append] at g4 g5
  have hpos' : ∀ l : Nat, l < t.length → (∀ w ∈ sortedWords t oov, t.findLabel w ≠ l) →
      T1.position[l]? = some 0 := by
    intro l hl h
    rw [g8 l h]
    simp [hl]
  by_cases hm : oov = -1
  · have hno : ¬ (oov ≥ 0) := by omega
    simp only [if_pos hm] at hlen
    simp only [addUnknown, if_neg hno, ok_bind]
    rw [if_neg (by omega)]
    refine ⟨_, rfl, ?_⟩
    refine ⟨by simp only [g2, if_pos hm]; simp, by simp only [g3, if_pos hm]; simp, g4, ?_, ?_, g7, hpos'⟩
    · simp only [g5]; simp
    · simp only [g6]; simp
  · rcases ho with ho | ⟨ho, hom⟩
    · exact absurd ho hm
    obtain ⟨hr0, hr1⟩ := (hd.labels oov).1 hom
    have hyes : oov ≥ 0 := by omega
    simp only [if_neg hm] at hlen g2 g3
    have hidx : 1 + (sortedWords t oov).length = t.length - 1 := by omega
    have e1 : setI T1.order ((1 + (sortedWords t oov).length : Nat) : Int) oov =
        .ok (0 :: (sortedWords t oov).map t.findLabel ++ [oov]) := by
      rw [setI_ok _ (by rw [g2]; simp; omega), g2]
      have := set_splice ([0] ++ (sortedWords t oov).map t.findLabel) 0 oov []
      have hl : ([0] ++ (sortedWords t oov).map t.findLabel).length = 1 + (sortedWords t oov).length := by
        simp; omega
      rw [hl] at this
      simp only [List.replicate_one] at this ⊢
      rw [this]
      simp
    have e2 : setI T1.prevPrefix ((1 + (sortedWords t oov).length : Nat) : Int) 0 =
        .ok (0 :: lcps [[]] (sortedWords t oov) ++ [0]) := by
      have hll : ∀ (ws : List Str) last, (lcps last ws).length = ws.length := by
        intro ws
        induction ws with
        | nil => intro; rfl
        | cons w ws ih => intro last; simp [lcps, ih]
      rw [setI_ok _ (by rw [g3]; simp [hll]; omega), g3]
      have := set_splice ([0] ++ lcps [[]] (sortedWords t oov)) 0 0 []
      have hl : ([0] ++ lcps [[]] (sortedWords t oov)).length = 1 + (sortedWords t oov).length := by
        simp [hll]; omega
      rw [hl] at this
      simp only [List.replicate_one] at this ⊢
      rw [this]
      simp
    have e3 : setI (0 :: (sortedWords t oov).map t.findLabel ++ [oov]) oov
        ((1 + (sortedWords t oov).length : Nat) : Int) =
        .ok ((0 :: (sortedWords t oov).map t.findLabel ++ [oov]).set oov.toNat ((t.length : Int) - 1)) := by
      have hl : (0 :: (sortedWords t oov).map t.findLabel ++ [oov]).length = t.length := by
        simp; omega
      have := setI_ok (l := 0 :: (sortedWords t oov).map t.findLabel ++ [oov]) (i := oov.toNat)
        ((1 + (sortedWords t oov).length : Nat) : Int) (by rw [hl]; omega)
      rw [show ((oov.toNat : Nat) : Int) = oov by omega] at this
      rw [this, hidx]
      congr 2
      omega
    simp only [addUnknown, if_pos hyes, e1, e2, e3, ok_bind]
    rw [if_neg (by omega)]
    refine ⟨_, rfl, ?_⟩
    refine ⟨by simp only [if_neg hm], by simp only [if_neg hm], g4, ?_, ?_, g7, hpos'⟩
    · simp only [g5]; simp
    · simp only [g6]; simp

end Mozolm.Word
