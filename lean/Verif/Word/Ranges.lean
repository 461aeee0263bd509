import Verif.Word.Tables

/-! # Ranges of words with a common prefix -/

namespace Mozolm.Word

variable {C : Type}

/-- What `Read` prepares: `W` is the sorted vocabulary; word number `i` (from 0) has index `i + 1` in the
tables. -/
structure Ready (M : Static C) (W : List Str) : Prop where
  sorted : W.Pairwise (· < ·)
  words : ∀ w ∈ W, w ≠ [] ∧ 32 ∉ w
  order : ∀ (i : Nat) w, W[i]? = some w →
    M.tables.order[i + 1]? = some (M.base.symbols.findLabel w) ∧
    M.base.symbols.findSymbol (M.base.symbols.findLabel w) = w
  prev : ∀ (i : Nat) u v, W[i]? = some u → W[i + 1]? = some v →
    M.tables.prevPrefix[i + 2]? = some (prefixMatch (strSplitByChar u) (strSplitByChar v) : Int)
  first : Groups 0 1 W M.tables.firstChars M.tables.firstEnds

/-- Indices `b` to `e` (from 1) are exactly the words of `W` that start with `p`. -/
def IsRange (W : List Str) (p : Str) (b e : Int) : Prop :=
  1 ≤ b ∧ b ≤ e ∧ e ≤ W.length ∧
    ∀ (i : Nat) w, W[i]? = some w → (p <+: w ↔ b ≤ (i : Int) + 1 ∧ (i : Int) + 1 ≤ e)

theorem IsRange.unique {W : List Str} {p : Str} {b e b' e' : Int} (h : IsRange W p b e)
    (h' : IsRange W p b' e') : b = b' ∧ e = e' := by
  obtain ⟨h1, h2, h3, h4⟩ := h
  obtain ⟨g1, g2, g3, g4⟩ := h'
  have key : ∀ i : Int, 1 ≤ i → i ≤ W.length → ((b ≤ i ∧ i ≤ e) ↔ (b' ≤ i ∧ i ≤ e')) := by
    intro i hi hl
    obtain ⟨w, hw⟩ := exists_getElem?_of_lt (l := W) (i := (i - 1).toNat) (by omega)
    have a := h4 _ w hw
    have c := g4 _ w hw
    rw [show (((i - 1).toNat : Nat) : Int) + 1 = i by omega] at a c
    exact a.symm.trans c
  have k1 := key b (by omega) (by omega)
  have k2 := key e (by omega) (by omega)
  have k3 := key b' (by omega) (by omega)
  have k4 := key e' (by omega) (by omega)
  omega

/-- The words of a range as a segment of the list. -/
theorem IsRange.split {W : List Str} {p : Str} {b e : Int} (h : IsRange W p b e) :
    ∃ pre seg post, W = pre ++ (seg ++ post) ∧ seg ≠ [] ∧ (∀ x ∈ seg, p <+: x) ∧
      (∀ x ∈ pre, ¬ p <+: x) ∧ (∀ x ∈ post, ¬ p <+: x) ∧ b = pre.length + 1 ∧
      e = pre.length + seg.length := by
  obtain ⟨h1, h2, h3, h4⟩ := h
  refine ⟨W.take (b - 1).toNat, (W.drop (b - 1).toNat).take (e - b + 1).toNat,
    (W.drop (b - 1).toNat).drop (e - b + 1).toNat,
    by rw [List.take_append_drop, List.take_append_drop], ?_, ?_, ?_, ?_, ?_, ?_⟩
  · apply List.ne_nil_of_length_pos
    simp
    omega
  · intro x hx
    obtain ⟨i, hi⟩ := List.getElem?_of_mem hx
    have hl := lt_of_getElem?_eq_some hi
    simp only [List.length_take, List.length_drop] at hl
    rw [List.getElem?_take_of_lt (by omega), List.getElem?_drop] at hi
    exact (h4 _ x hi).2 (by push_cast; omega)
  · intro x hx
    obtain ⟨i, hi⟩ := List.getElem?_of_mem hx
    have hl := lt_of_getElem?_eq_some hi
    simp only [List.length_take] at hl
    rw [List.getElem?_take_of_lt (by omega)] at hi
    rw [h4 _ x hi]
    omega
  · intro x hx
    obtain ⟨i, hi⟩ := List.getElem?_of_mem hx
    rw [List.getElem?_drop, List.getElem?_drop] at hi
    rw [h4 _ x hi]
    push_cast
    omega
  · simp only [List.length_take]
    omega
  · simp only [List.length_take, List.length_drop]
    omega

theorem IsRange.of_split {W : List Str} {p : Str} {pre seg post : List Str}
    (hW : W = pre ++ (seg ++ post)) (hne : seg ≠ []) (h1 : ∀ x ∈ seg, p <+: x)
    (h2 : ∀ x ∈ pre, ¬ p <+: x) (h3 : ∀ x ∈ post, ¬ p <+: x) :
    IsRange W p ((pre.length : Int) + 1) ((pre.length : Int) + seg.length) := by
  have hpos := List.length_pos_of_ne_nil hne
  refine ⟨by omega, by omega, by rw [hW]; simp; omega, ?_⟩
  intro i w hw
  rw [hW] at hw
  by_cases ha : i < pre.length
  · rw [List.getElem?_append_left ha] at hw
    have := h2 w (List.mem_of_getElem? hw)
    constructor
    · intro h; exact absurd h this
    · omega
  · rw [List.getElem?_append_right (by omega)] at hw
    by_cases hb : i - pre.length < seg.length
    · rw [List.getElem?_append_left hb] at hw
      have := h1 w (List.mem_of_getElem? hw)
      constructor
      · intro _; omega
      · intro _; exact this
    · rw [List.getElem?_append_right (by omega)] at hw
      have := h3 w (List.mem_of_getElem? hw)
      constructor
      · intro h; exact absurd h this
      · omega

/-- The code of a next character, the end of the word being a space. -/
def keyCode : Option Nat → Int
  | none => 32
  | some c => c

theorem getNextChar_eq (w : Str) (k : Nat) : getNextChar w (k : Int) = keyChar w[k]? := by
  simp only [getNextChar, Int.toNat_natCast, strSplitByChar, List.getElem?_map]
  rw [if_neg (by omega)]
  cases w[k]? <;> rfl

theorem decodeSingle_keyChar (key : Option Nat) : decodeSingle (keyChar key) = some (keyCode key) := by
  cases key <;> rfl

namespace Ready
variable {M : Static C} {W : List Str}

theorem charAt_ok (hr : Ready M W) {i : Nat} {w : Str} (h : W[i]? = some w) (k : Nat) {j : Int}
    (hj : j = (i : Int) + 1) : charAt M j k = .ok (keyChar w[k]?) := by
  obtain ⟨h1, h2⟩ := hr.order i w h
  have : j = ((i + 1 : Nat) : Int) := by omega
  simp only [charAt, this, getI_ok h1, ok_bind, h2, getNextChar_eq]

/-- The test for "same next character as the word before". -/
theorem prev_test (hr : Ready M W) {pre : List Str} {u v : Str} {post : List Str}
    (hW : W = pre ++ u :: v :: post) {p : Str} (hu : p <+: u) (hv : p <+: v) {j : Int}
    (hj : j = (pre.length : Int) + 2) :
    ∃ x, getI M.tables.prevPrefix j = .ok x ∧ (x > (p.length : Int) ↔ v[p.length]? = u[p.length]?) := by
  have e1 : W[pre.length]? = some u := by rw [hW]; simp
  have e2 : W[pre.length + 1]? = some v := by rw [hW]; simp
  refine ⟨_, by rw [show j = ((pre.length + 2 : Nat) : Int) by omega]; exact getI_ok (hr.prev _ _ _ e1 e2), ?_⟩
  have hne : u ≠ v := by
    rintro rfl
    have := hr.sorted
    rw [hW, List.pairwise_append, List.pairwise_cons] at this
    exact List.lt_irrefl _ (this.2.1.1 u (by simp))
  have := lt_prefixMatch_iff hu hv hne
  rw [gt_iff_lt, Int.ofNat_lt, this]
  exact ⟨Eq.symm, Eq.symm⟩

/-- Skipping the words with the same next character as the word before. -/
theorem skipSame_ok (hr : Ready M W) {p : Str} (ws : List Str) :
    ∀ (pre : List Str) (l : Str) (post : List Str) (fuel : Nat) (i final : Int),
    W = pre ++ l :: (ws ++ post) → (∀ x ∈ l :: ws, p <+: x) → ws.length < fuel →
    i = (pre.length : Int) + 2 → final = (pre.length : Int) + 1 + ws.length →
    ∃ g ws', ws = g ++ ws' ∧ (∀ x ∈ g, x[p.length]? = l[p.length]?) ∧
      (∀ x ∈ ws', x[p.length]? ≠ l[p.length]?) ∧
      skipSame M.tables.prevPrefix p.length final fuel i = .ok (i + g.length) := by
  induction ws with
  | nil =>
    intro pre l post fuel i final hW hp hf hi hfin
    obtain ⟨fuel, rfl⟩ : ∃ n, fuel = n + 1 := ⟨fuel - 1, by omega⟩
    refine ⟨[], [], rfl, by simp, by simp, ?_⟩
    simp only [List.length_nil] at hfin
    simp only [skipSame]
    rw [if_neg (by omega)]
    simp
  | cons v ws ih =>
    intro pre l post fuel i final hW hp hf hi hfin
    obtain ⟨fuel, rfl⟩ : ∃ n, fuel = n + 1 := ⟨fuel - 1, by omega⟩
    simp only [List.length_cons] at hf hfin
    obtain ⟨x, e, hx⟩ := hr.prev_test (pre := pre) (u := l) (v := v) (post := ws ++ post)
      (by simpa using hW) (hp l (by simp)) (hp v (by simp)) hi
    simp only [skipSame]
    rw [if_pos (by omega)]
    simp only [e, ok_bind]
    by_cases hk : v[p.length]? = l[p.length]?
    · rw [if_pos (hx.2 hk)]
      obtain ⟨g, ws', h1, h2, h3, h4⟩ := ih (pre ++ [l]) v post fuel (i + 1) final
        (by rw [hW]; simp) (fun y hy => hp y (List.mem_cons_of_mem _ hy)) (by omega)
        (by simp; omega) (by simp; omega)
      refine ⟨v :: g, ws', by rw [h1]; rfl, ?_, ?_, ?_⟩
      · intro y hy
        rcases List.mem_cons.1 hy with rfl | hy
        · exact hk
        · rw [h2 y hy, hk]
      · intro y hy; rw [← hk]; exact h3 y hy
      · rw [h4]
        simp only [List.length_cons]
        push_cast
        congr 1
        omega
    · rw [if_neg (fun h => hk (hx.1 h))]
      refine ⟨[], v :: ws, rfl, by simp, ?_, by simp⟩
      have hs := hr.sorted
      rw [hW] at hs
      have hs' : (pre ++ l :: v :: ws).Pairwise (· < ·) := by
        have : pre ++ l :: ((v :: ws) ++ post) = (pre ++ l :: v :: ws) ++ post := by simp
        rw [this] at hs
        exact (List.pairwise_append.1 hs).1
      exact rest_key hs' hp hk

/-- The end of the group of a word. -/
theorem findEnd_ok (hr : Ready M W) {p : Str} (ws : List Str) :
    ∀ (pre : List Str) (l : Str) (post : List Str) (fuel : Nat) (i final : Int),
    W = pre ++ l :: (ws ++ post) → (∀ x ∈ l :: ws, p <+: x) → ws.length < fuel →
    i = (pre.length : Int) + 1 → final = (pre.length : Int) + 1 + ws.length →
    ∃ g ws', ws = g ++ ws' ∧ (∀ x ∈ g, x[p.length]? = l[p.length]?) ∧
      (∀ x ∈ ws', x[p.length]? ≠ l[p.length]?) ∧
      findEnd M.tables.prevPrefix p.length final fuel i = .ok (i + g.length) := by
  induction ws with
  | nil =>
    intro pre l post fuel i final hW hp hf hi hfin
    obtain ⟨fuel, rfl⟩ : ∃ n, fuel = n + 1 := ⟨fuel - 1, by omega⟩
    refine ⟨[], [], rfl, by simp, by simp, ?_⟩
    simp only [List.length_nil] at hfin
    simp only [findEnd]
    rw [if_neg (by omega)]
    simp
  | cons v ws ih =>
    intro pre l post fuel i final hW hp hf hi hfin
    obtain ⟨fuel, rfl⟩ : ∃ n, fuel = n + 1 := ⟨fuel - 1, by omega⟩
    simp only [List.length_cons] at hf hfin
    obtain ⟨x, e, hx⟩ := hr.prev_test (pre := pre) (u := l) (v := v) (post := ws ++ post)
      (by simpa using hW) (hp l (by simp)) (hp v (by simp)) (j := i + 1) (by omega)
    simp only [findEnd]
    rw [if_pos (by omega)]
    simp only [e, ok_bind]
    by_cases hk : v[p.length]? = l[p.length]?
    · rw [if_pos (hx.2 hk)]
      obtain ⟨g, ws', h1, h2, h3, h4⟩ := ih (pre ++ [l]) v post fuel (i + 1) final
        (by rw [hW]; simp) (fun y hy => hp y (List.mem_cons_of_mem _ hy)) (by omega)
        (by simp; omega) (by simp; omega)
      refine ⟨v :: g, ws', by rw [h1]; rfl, ?_, ?_, ?_⟩
      · intro y hy
        rcases List.mem_cons.1 hy with rfl | hy
        · exact hk
        · rw [h2 y hy, hk]
      · intro y hy; rw [← hk]; exact h3 y hy
      · rw [h4]
        simp only [List.length_cons]
        push_cast
        congr 1
        omega
    · rw [if_neg (fun h => hk (hx.1 h))]
      refine ⟨[], v :: ws, rfl, by simp, ?_, by simp⟩
      have hs := hr.sorted
      rw [hW] at hs
      have hs' : (pre ++ l :: v :: ws).Pairwise (· < ·) := by
        have : pre ++ l :: ((v :: ws) ++ post) = (pre ++ l :: v :: ws) ++ post := by simp
        rw [this] at hs
        exact (List.pairwise_append.1 hs).1
      exact rest_key hs' hp hk

/-- The search for the first word with the wanted next character. -/
theorem findBegin_ok (hr : Ready M W) {p : Str} {sym : Int} (n : Nat) :
    ∀ (ws pre post : List Str) (fuel : Nat) (i final ch : Int), ws.length ≤ n →
    W = pre ++ (ws ++ post) → (∀ x ∈ ws, p <+: x) → ws.length + 2 ≤ fuel →
    i = (pre.length : Int) + 1 → final = (pre.length : Int) + ws.length → sym ≠ ch →
    ((∀ x ∈ ws, keyCode x[p.length]? ≠ sym) ∧
      findBegin M p.length final sym fuel i ch = .ok (some (final + 1))) ∨
    (∃ d w ws', ws = d ++ w :: ws' ∧ (∀ x ∈ d, keyCode x[p.length]? ≠ sym) ∧
      keyCode w[p.length]? = sym ∧
      findBegin M p.length final sym fuel i ch = .ok (some (i + d.length))) := by
  induction n with
  | zero =>
    intro ws pre post fuel i final ch hn hW hp hf hi hfin hch
    have : ws = [] := by cases ws <;> simp_all
    subst this
    obtain ⟨fuel, rfl⟩ : ∃ n, fuel = n + 1 := ⟨fuel - 1, by omega⟩
    simp only [List.length_nil] at hfin
    left
    refine ⟨by simp, ?_⟩
    simp only [findBegin]
    rw [if_neg (by omega)]
    congr 2
    omega
  | succ n ih =>
    intro ws pre post fuel i final ch hn hW hp hf hi hfin hch
    obtain ⟨fuel, rfl⟩ : ∃ n, fuel = n + 1 := ⟨fuel - 1, by omega⟩
    cases ws with
    | nil =>
      simp only [List.length_nil] at hfin
      left
      refine ⟨by simp, ?_⟩
      simp only [findBegin]
      rw [if_neg (by omega)]
      congr 2
      omega
    | cons w ws =>
      simp only [List.length_cons] at hn hf hfin
      have hw : W[pre.length]? = some w := by rw [hW]; simp
      simp only [findBegin]
      rw [if_pos ⟨by omega, hch⟩]
      simp only [hr.charAt_ok hw p.length hi, ok_bind, decodeSingle_keyChar]
      by_cases hk : keyCode w[p.length]? = sym
      · right
        refine ⟨[], w, ws, rfl, by simp, hk, ?_⟩
        rw [if_neg (fun h => h hk)]
        obtain ⟨fuel, rfl⟩ : ∃ n, fuel = n + 1 := ⟨fuel - 1, by omega⟩
        simp only [findBegin]
        rw [if_neg (fun h => h.2 hk.symm)]
        simp
      · rw [if_pos hk]
        obtain ⟨g, ws', h1, h2, h3, h4⟩ := hr.skipSame_ok (p := p) ws pre w post (fuel + 1) (i + 1) final
          (by rw [hW]; simp) hp (by omega) (by omega) (by omega)
        simp only [h4, ok_bind]
        have hl : ws.length = g.length + ws'.length := by rw [h1]; simp
        have hgk : ∀ x ∈ w :: g, keyCode x[p.length]? ≠ sym := by
          intro x hx
          rcases List.mem_cons.1 hx with rfl | hx
          · exact hk
          · rw [h2 x hx]; exact hk
        rcases ih ws' (pre ++ w :: g) post fuel (i + 1 + g.length) final (keyCode w[p.length]?)
            (by omega) (by rw [hW, h1]; simp)
            (fun x hx => hp x (by rw [h1]; simp [hx])) (by omega) (by simp; omega)
            (by simp; omega) (fun h => hk h.symm) with ⟨a1, a2⟩ | ⟨d, w', ws'', a1, a2, a3, a4⟩
        · left
          refine ⟨?_, a2⟩
          intro x hx
          rw [h1, ← List.cons_append] at hx
          rcases List.mem_append.1 hx with hx | hx
          · exact hgk x hx
          · exact a1 x hx
        · right
          refine ⟨w :: g ++ d, w', ws'', by rw [h1, a1]; simp, ?_, a3, ?_⟩
          · intro x hx
            rcases List.mem_append.1 hx with hx | hx
            · exact hgk x hx
            · exact a2 x hx
          · rw [a4]
            simp only [List.length_append, List.length_cons]
            push_cast
            congr 2
            omega

theorem keyCode_eq {key : Option Nat} {sym : Int} (h32 : sym ≠ 32) (h : keyCode key = sym) :
    ∃ c : Nat, key = some c ∧ sym = c := by
  cases key with
  | none => exact absurd h.symm h32
  | some c => exact ⟨c, rfl, h.symm⟩

/-- A group inside a range is the range of a longer prefix. -/
theorem subrange {p : Str} {pre d : List Str} {w : Str} {g rest post : List Str}
    (hW : W = pre ++ (d ++ w :: (g ++ rest) ++ post)) {c : Nat} (hc : w[p.length]? = some c)
    (hp : ∀ x ∈ d ++ w :: (g ++ rest), p <+: x)
    (hpre : ∀ x ∈ pre, ¬ p <+: x) (hpost : ∀ x ∈ post, ¬ p <+: x)
    (hd : ∀ x ∈ d, x[p.length]? ≠ some c) (hg : ∀ x ∈ g, x[p.length]? = some c)
    (hrest : ∀ x ∈ rest, x[p.length]? ≠ some c) :
    IsRange W (p ++ [c]) ((pre.length : Int) + 1 + d.length)
      ((pre.length : Int) + 1 + d.length + g.length) := by
  have := IsRange.of_split (W := W) (p := p ++ [c]) (pre := pre ++ d) (seg := w :: g)
    (post := rest ++ post) (by rw [hW]; simp) (by simp)
    (by
      intro x hx
      rw [prefix_snoc_iff]
      refine ⟨hp x (by rcases List.mem_cons.1 hx with rfl | hx <;> simp_all), ?_⟩
      rcases List.mem_cons.1 hx with rfl | hx
      · exact hc
      · exact hg x hx)
    (by
      intro x hx h
      rw [prefix_snoc_iff] at h
      rcases List.mem_append.1 hx with hx | hx
      · exact hpre x hx h.1
      · exact hd x hx h.2)
    (by
      intro x hx h
      rw [prefix_snoc_iff] at h
      rcases List.mem_append.1 hx with hx | hx
      · exact hrest x hx h.2
      · exact hpost x hx h.1)
  simp only [List.length_append, List.length_cons] at this
  push_cast at this
  have e1 : (pre.length : Int) + d.length + 1 = (pre.length : Int) + 1 + d.length := by omega
  have e2 : (pre.length : Int) + d.length + (g.length + 1) = (pre.length : Int) + 1 + d.length + g.length := by
    omega
  rw [e1, e2] at this
  exact this

/-- `GetBeginEndIndices` at a prefix state, for a letter. -/
theorem getBeginEndIndices_ok (hr : Ready M W) {x : Info} {p : Str} (hl : x.prefixLength = p.length)
    (hx : IsRange W p x.beginIndex x.endIndex) {sym : Int} (h1 : sym ≠ -1) (h32 : sym ≠ 32) :
    (∃ (c : Nat) (b e : Int), sym = c ∧ getBeginEndIndices M x x.prefixLength sym = .ok (b, e) ∧
      IsRange W (p ++ [c]) b e) ∨
    ((∀ c : Nat, sym = c → ∀ w ∈ W, ¬ p ++ [c] <+: w) ∧
      getBeginEndIndices M x x.prefixLength sym = .ok (-1, -1)) := by
  obtain ⟨pre, seg, post, hW, hne, hseg, hpre, hpost, hb, he⟩ := hx.split
  have hpos := List.length_pos_of_ne_nil hne
  have hfuel : (x.endIndex - x.beginIndex).toNat + 3 = seg.length + 2 := by omega
  simp only [getBeginEndIndices, hl, hfuel]
  rcases hr.findBegin_ok (p := p) (sym := sym) seg.length seg pre post (seg.length + 2) x.beginIndex
    x.endIndex (-1) (Nat.le_refl _) hW hseg (Nat.le_refl _) hb he h1 with ⟨a1, a2⟩ | ⟨d, w, ws, a1, a2, a3, a4⟩
  · right
    refine ⟨?_, ?_⟩
    · rintro c rfl w hw hpw
      rw [prefix_snoc_iff] at hpw
      rw [hW] at hw
      rcases List.mem_append.1 hw with hw | hw
      · exact hpre w hw hpw.1
      · rcases List.mem_append.1 hw with hw | hw
        · exact a1 w hw (by rw [hpw.2]; rfl)
        · exact hpost w hw hpw.1
    · simp only [a2, ok_bind]
      rw [if_pos (by omega)]
  · left
    obtain ⟨c, hc, rfl⟩ := keyCode_eq h32 a3
    have hlen : seg.length = d.length + (ws.length + 1) := by rw [a1]; simp
    obtain ⟨g, rest, b1, b2, b3, b4⟩ := hr.findEnd_ok (p := p) ws (pre ++ d) w post (seg.length + 2)
      (x.beginIndex + d.length) x.endIndex (by rw [hW, a1]; simp)
      (fun y hy => hseg y (by rw [a1]; exact List.mem_append_right _ hy)) (by omega)
      (by simp; omega) (by simp; omega)
    refine ⟨c, x.beginIndex + d.length, x.beginIndex + d.length + g.length, rfl, ?_, ?_⟩
    · simp only [a4, ok_bind]
      rw [if_neg (by omega)]
      simp only [b4, ok_bind]
    · rw [hb]
      subst b1
      refine subrange (p := p) (w := w) (rest := rest) (post := post) (by rw [hW, a1]) hc
        (by rw [← a1]; exact hseg) hpre hpost ?_ (fun y hy => by rw [b2 y hy, hc])
        (fun y hy => by rw [← hc]; exact b3 y hy)
      intro y hy h
      exact a2 y hy (by rw [h]; rfl)

/-- `GetBeginEndIndices` for the symbol -1: taken as the next character of the first word. -/
theorem getBeginEndIndices_neg (hr : Ready M W) {x : Info} {p : Str} (hl : x.prefixLength = p.length)
    (hx : IsRange W p x.beginIndex x.endIndex) :
    (∃ (c : Nat) (e : Int), getBeginEndIndices M x x.prefixLength (-1) = .ok (x.beginIndex, e) ∧
      IsRange W (p ++ [c]) x.beginIndex e) ∨
    (∃ i : Nat, W[i]? = some p ∧ x.beginIndex = (i : Int) + 1 ∧
      getBeginEndIndices M x x.prefixLength (-1) = .ok (x.beginIndex, x.beginIndex)) := by
  obtain ⟨pre, seg, post, hW, hne, hseg, hpre, hpost, hb, he⟩ := hx.split
  have hpos := List.length_pos_of_ne_nil hne
  have hfuel : (x.endIndex - x.beginIndex).toNat + 3 = seg.length + 2 := by omega
  simp only [getBeginEndIndices, hl, hfuel]
  have hfb : findBegin M p.length x.endIndex (-1) (seg.length + 2) x.beginIndex (-1) =
      .ok (some x.beginIndex) := by
    simp only [findBegin]
    rw [if_neg (fun h => h.2 rfl)]
  simp only [hfb, ok_bind]
  rw [if_neg (by omega)]
  cases seg with
  | nil => exact absurd rfl hne
  | cons w ws =>
    simp only [List.length_cons] at he
    obtain ⟨g, rest, b1, b2, b3, b4⟩ := hr.findEnd_ok (p := p) ws pre w post ((w :: ws).length + 2)
      x.beginIndex x.endIndex (by rw [hW]; simp) hseg (by simp; omega) hb (by omega)
    simp only [b4, ok_bind]
    cases hk : w[p.length]? with
    | some c =>
      left
      refine ⟨c, x.beginIndex + g.length, rfl, ?_⟩
      subst b1
      have := subrange (p := p) (W := W) (pre := pre) (d := []) (w := w) (g := g) (rest := rest)
        (post := post) (by rw [hW]; simp) hk (by simpa using hseg) hpre hpost (by simp)
        (fun y hy => by rw [b2 y hy, hk]) (fun y hy => by rw [← hk]; exact b3 y hy)
      rw [hb]
      simpa using this
    | none =>
      right
      have hwp : w = p := prefix_end_iff.1 ⟨hseg w (by simp), hk⟩
      refine ⟨pre.length, by rw [hW, hwp]; simp, hb, ?_⟩
      have hg : g = [] := by
        cases g with
        | nil => rfl
        | cons v g =>
          exfalso
          have hv := b2 v (by simp)
          rw [hk] at hv
          have hvp : v = p := prefix_end_iff.1 ⟨hseg v (by rw [b1]; simp), hv⟩
          have hs := hr.sorted
          rw [hW, b1, List.pairwise_append] at hs
          have := hs.2.1
          simp only [List.cons_append, List.pairwise_cons] at this
          exact List.lt_irrefl p (by
            have h := this.1 v (by simp)
            rw [hwp, hvp] at h
            exact h)
      simp [hg]

/-- Searching the first letters. -/
theorem findFirst_groups {u : Str} : ∀ {ws : List Str} {b : Nat} {chars : List Str} {ends : List Int},
    Groups 0 b ws chars ends →
    (∃ d g rest, ∃ key, ws = d ++ g ++ rest ∧ g ≠ [] ∧ keyChar key = u ∧
      (∀ w ∈ g, w[0]? = key) ∧ (∀ w ∈ d, keyChar w[0]? ≠ u) ∧ (∀ w ∈ rest, w[0]? ≠ key) ∧
      findFirst u chars ends b = .ok ((b : Int) + d.length, (b : Int) + d.length + g.length - 1)) ∨
    ((∀ w ∈ ws, keyChar w[0]? ≠ u) ∧ ∃ x, findFirst u chars ends b = .ok (x, -1)) := by
  intro ws b chars ends h
  induction h with
  | nil b => exact .inr ⟨by simp, b, rfl⟩
  | @cons b g rest key chars ends h1 h2 h3 _ ih =>
    simp only [findFirst]
    by_cases hu : keyChar key = u
    · rw [if_pos hu]
      refine .inl ⟨[], g, rest, key, by simp, h1, hu, h2, by simp, h3, ?_⟩
      simp
    · rw [if_neg hu]
      have hgu : ∀ w ∈ g, keyChar w[0]? ≠ u := fun w hw => by rw [h2 w hw]; exact hu
      have e0 : ((b + g.length : Nat) : Int) - 1 + 1 = ((b + g.length : Nat) : Int) := by omega
      rw [e0]
      rcases ih with ⟨d, g', rest', key', a1, a2, a3, a4, a5, a6, a7⟩ | ⟨a1, x, a2⟩
      · refine .inl ⟨g ++ d, g', rest', key', by rw [a1]; simp, a2, a3, a4, ?_, a6, ?_⟩
        · intro w hw
          rcases List.mem_append.1 hw with hw | hw
          · exact hgu w hw
          · exact a5 w hw
        · rw [a7]
          simp only [List.length_append]
          push_cast
          congr 2 <;> omega
      · refine .inr ⟨?_, x, a2⟩
        intro w hw
        rcases List.mem_append.1 hw with hw | hw
        · exact hgu w hw
        · exact a1 w hw

/-- The search for a first letter gives the range of the words starting with it. -/
theorem findFirst_ok (hr : Ready M W) (u : Str) :
    (∃ (c : Nat) (b e : Int), u = [c] ∧ IsRange W [c] b e ∧
      findFirst u M.tables.firstChars M.tables.firstEnds 1 = .ok (b, e)) ∨
    ((∀ w ∈ W, ∀ c, u = [c] → ¬ [c] <+: w) ∧
      ∃ x, findFirst u M.tables.firstChars M.tables.firstEnds 1 = .ok (x, -1)) := by
  have hsnoc : ∀ (c : Nat) (w : Str), [c] <+: w ↔ w[0]? = some c := by
    intro c w
    have := prefix_snoc_iff (p := []) (u := w) (c := c)
    simpa using this
  rcases findFirst_groups (u := u) hr.first with ⟨d, g, rest, key, a1, a2, a3, a4, a5, a6, a7⟩ | ⟨a1, x, a2⟩
  · left
    obtain ⟨w, hw⟩ := List.exists_mem_of_ne_nil g a2
    have hwk := a4 w hw
    cases hk : key with
    | none =>
      exfalso
      rw [hk] at hwk
      have : w = [] := by cases w <;> simp_all
      exact (hr.words w (by rw [a1]; simp [hw])).1 this
    | some c =>
      subst hk
      refine ⟨c, 1 + d.length, 1 + d.length + g.length - 1, a3.symm, ?_, by
        simp only [Int.natCast_one] at a7; exact a7⟩
      have := IsRange.of_split (W := W) (p := [c]) (pre := d) (seg := g) (post := rest)
        (by rw [a1]; simp) a2 (fun y hy => (hsnoc c y).2 (a4 y hy))
        (fun y hy h => a5 y hy (by rw [(hsnoc c y).1 h]; exact a3))
        (fun y hy h => a6 y hy ((hsnoc c y).1 h))
      have e1 : (1 : Int) + d.length = (d.length : Int) + 1 := by omega
      have e2 : (1 : Int) + d.length + g.length - 1 = (d.length : Int) + g.length := by omega
      rw [e2, e1]
      exact this
  · right
    refine ⟨?_, x, by simp only [Int.natCast_one] at a2; exact a2⟩
    rintro w hw c rfl h
    exact a1 w hw (by rw [(hsnoc c w).1 h]; rfl)

end Ready
end Mozolm.Word
