import Verif.Word.Answer
import Verif.Props.WordLoad

/-!
# C32: next-character scores are the word marginals

Exact real arithmetic; for every automaton (closed, acyclic backoff, weights being costs of non-negative
numbers, at most one arc per word in a state), every vocabulary as in `Vocabulary`, every history of calls
and every typed prefix.
-/

namespace Mozolm.Word
open XR NGram

/-- A usable model whose weights are costs and whose automaton is deterministic. -/
structure Scored (m : Model XR) : Prop where
  usable : Usable (A := Arith.xr) m
  weighted : Weighted m.static.base.fst
  deterministic : Deterministic m.static.base.fst
  unknown : UnknownSafe m.static.base.fst m.static.base.oov

/-- The response gives the string `sym` the probability `x`. -/
def Listed (r : LMScores XR) (sym : Str) (x : ℝ) : Prop :=
  ∃ i : Nat, r.symbols[i]? = some sym ∧ r.probs[i]? = some (.fin x)

/-- What all strings that may follow `p` weigh together: the words starting with `p` and, before the
first letter, the end of the text. -/
def weight (t : SymbolTable) (oov : Int) (P : Int → ℝ) (F : ℝ) (p : Str) : ℝ :=
  mass t oov P p + if p = [] then F else 0

/-- The response is the distribution of the next character after the letters `p` (32 is the space, the
empty string the end of the text): `P l` is the probability of the word with label `l`, `F` that of the end
of the text, `fn` that of the end of the text after the word `p`. -/
structure IsNextChar (t : SymbolTable) (oov : Int) (P : Int → ℝ) (F fn : ℝ) (p : Str) (r : LMScores XR) :
    Prop where
  /-- the strings listed: each once, and each the end of the text or one character -/
  once : r.symbols.Nodup
  single : ∀ sym ∈ r.symbols, sym = [] ∨ ∃ c : Nat, sym = [c]
  /-- a letter: exactly those that continue some word, with the share of those words -/
  letter : ∀ (c : Nat) x, c ≠ 32 →
    (Listed r [c] x ↔ Starts t oov (p ++ [c]) ∧ x = mass t oov P (p ++ [c]) / weight t oov P F p)
  /-- the space: exactly if `p` is a word -/
  space : ∀ x, Listed r [32] x ↔ ∃ l, IsWord t oov l p ∧ x = P l * (1 - fn) / weight t oov P F p
  /-- the end of the text: before the first letter or if `p` is a word, unless impossible -/
  stop : ∀ x, Listed r [] x ↔ (p = [] ∧ 0 < F ∧ x = F / weight t oov P F p) ∨
    (∃ l, IsWord t oov l p ∧ 0 < fn ∧ x = P l * fn / weight t oov P F p)
  /-- a distribution -/
  dist : ∃ xs : List ℝ, r.probs = xs.map .fin ∧ xs.length = r.symbols.length ∧ (∀ x ∈ xs, 0 ≤ x) ∧ xs.sum = 1
  norm : r.norm = .fin 1

theorem listed_map {L : List (Str × ℝ)} {total : ℝ} {n : XR} (hnd : (L.map Prod.fst).Nodup) (sym : Str) (x : ℝ) :
    Listed { symbols := L.map Prod.fst, probs := L.map fun y => .fin (y.2 / total), norm := n } sym x ↔
      ∃ m, (sym, m) ∈ L ∧ x = m / total := by
  constructor
  · rintro ⟨i, h1, h2⟩
    simp only [List.getElem?_map, Option.map_eq_some_iff] at h1 h2
    obtain ⟨y, hy, rfl⟩ := h1
    obtain ⟨z, hz, h⟩ := h2
    rw [hy] at hz; cases hz
    exact ⟨y.2, List.mem_of_getElem? hy, (XR.fin.inj h).symm⟩
  · rintro ⟨m, hm, rfl⟩
    obtain ⟨i, hi⟩ := List.mem_iff_getElem?.1 hm
    exact ⟨i, by simp [hi], by simp [hi]⟩

theorem Split.isNextChar {t : SymbolTable} {oov : Int} {P : Int → ℝ} {F fn : ℝ} {p : Str} {L : List (Str × ℝ)}
    (h : Split t oov P p F fn (weight t oov P F p) L) (h0 : 0 < weight t oov P F p) :
    IsNextChar t oov P F fn p { symbols := L.map Prod.fst
                                probs := L.map fun y => .fin (y.2 / weight t oov P F p), norm := .fin 1 } where
  once := h.nodup
  single := by
    intro sym hs
    obtain ⟨x, hx, rfl⟩ := List.mem_map.1 hs
    exact h.single x hx
  letter := by
    intro c x hc
    rw [listed_map h.nodup]
    constructor
    · rintro ⟨m, hm, rfl⟩
      obtain ⟨a, rfl⟩ := (h.letter c m hc).1 hm
      exact ⟨a, rfl⟩
    · rintro ⟨a, rfl⟩
      exact ⟨_, (h.letter c _ hc).2 ⟨a, rfl⟩, rfl⟩
  space := by
    intro x
    rw [listed_map h.nodup]
    constructor
    · rintro ⟨m, hm, rfl⟩
      obtain ⟨l, hl, rfl⟩ := (h.space m).1 hm
      exact ⟨l, hl, rfl⟩
    · rintro ⟨l, hl, rfl⟩
      exact ⟨_, (h.space _).2 ⟨l, hl, rfl⟩, rfl⟩
  stop := by
    intro x
    rw [listed_map h.nodup]
    constructor
    · rintro ⟨m, hm, rfl⟩
      rcases (h.stop m).1 hm with ⟨a, b, rfl⟩ | ⟨l, hl, a, rfl⟩
      · exact .inl ⟨a, b, rfl⟩
      · exact .inr ⟨l, hl, a, rfl⟩
    · rintro (⟨a, b, rfl⟩ | ⟨l, hl, a, rfl⟩)
      · exact ⟨_, (h.stop _).2 (.inl ⟨a, b, rfl⟩), rfl⟩
      · exact ⟨_, (h.stop _).2 (.inr ⟨l, hl, a, rfl⟩), rfl⟩
  dist := by
    refine ⟨L.map fun y => y.2 / weight t oov P F p, by simp [List.map_map, Function.comp_def], by simp, ?_, ?_⟩
    · intro x hx
      obtain ⟨y, hy, rfl⟩ := List.mem_map.1 hx
      exact div_nonneg (h.nonneg y hy) h0.le
    · have := Scores.sum_map_div (L.map Prod.snd) (weight t oov P F p)
      rw [List.map_map] at this
      rw [show (fun y : Str × ℝ => y.2 / weight t oov P F p) = ((fun x => x / weight t oov P F p) ∘ Prod.snd) from rfl,
        this, h.sum, div_self h0.ne']
  norm := rfl

/-- The weight vectors of all states, as cumulative probabilities. -/
theorem Scored.cumul {m : Model XR} (hm : Scored m) {V : Int → List XR} (hV : Serves (A := Arith.xr) V m.static)
    {q : Nat} (hq : q < m.static.base.fst.states.length) :
    ∃ F P, Cumul m.static.base.fst m.static.base.symbols
      (sortedWords m.static.base.symbols m.static.base.oov) m.static.tables.order.length q (V q) F P := by
  obtain ⟨u, hu, hf, hB, hr, hi0⟩ := hm.usable.toLoaded.fit
  have hS := hm.usable.toLoaded.sound hm.usable.labels
  exact Vec.cumul hm.weighted hm.deterministic hm.unknown (hB.placed hm.usable.vocabulary.dense) hS.pos
    (hV q hq)

/-- **C32** after any history, at a state standing for the letters `p` typed in the context `q`,
`ExtractLMScores` answers the distribution of the next character under the word distribution of that
context, provided that some word or the end of the text is possible there. -/
theorem C32_marginals {m : Model XR} (hm : Scored m) {encode : Int → Str}
    (he : Encodes encode m.static.base.symbols m.static.base.oov) :
    ∃ bound, ∀ fuel, bound ≤ fuel → ∀ I c, Uses (A := Arith.xr) encode fuel m.static m.imp m.cache I c →
      ∀ (u : Nat) (s : Int) (q : Nat) (p : Str) (P : Int → ℝ) (F fn : ℝ), m.static.base.unigram = u →
      Stands m.static I s (.word q p) →
      (∀ l w, IsWord m.static.base.symbols m.static.base.oov l w → WordProb m.static.base.fst l q (P l)) →
      EndProb m.static.base.fst q F →
      (∀ l d, IsWord m.static.base.symbols m.static.base.oov l p →
        AfterWord (A := Arith.xr) m.static.base.fst u q l d → EndProb m.static.base.fst d fn) → fn ≤ 1 →
      0 < weight m.static.base.symbols m.static.base.oov P F p →
      ∃ r c', extractLMScores Arith.xr fuel ⟨m.static, I, c⟩ s (noScores Arith.xr) = .ok (true, r, c') ∧
        IsNextChar m.static.base.symbols m.static.base.oov P F fn p r := by
  obtain ⟨bound, hb⟩ := enough_of_acyclic (A := Arith.xr) hm.usable.acyclic
  obtain ⟨u', hu', hf, hB, hr, hi0⟩ := hm.usable.toLoaded.fit
  have hS := hm.usable.toLoaded.sound hm.usable.labels
  obtain ⟨hmax, hc0⟩ := hm.usable.toLoaded.cache hm.usable.labels hm.usable.hiOrder
  obtain ⟨V, hV⟩ := Serves.exists hS hm.usable.acyclic
  refine ⟨bound, fun fuel hfu I c h u s q p P F fn hu hs hP hF hfn h1 h0 => ?_⟩
  have : u' = u := by omega
  subst this
  obtain ⟨hI, -, hc⟩ := h.inv hm.usable he (hb fuel hfu) hi0 hc0
  have hq : q < m.static.base.fst.states.length := by
    cases p with
    | nil => exact hs.2
    | cons _ _ => exact hs.2.1
  obtain ⟨F', P', hC⟩ := hm.cumul hV hq
  rw [EndProb.unique hC.fin hF] at hC
  have hn : (sortedWords m.static.base.symbols m.static.base.oov).length < m.static.tables.order.length := by
    rw [hB.order]
    split <;> simp <;> omega
  obtain ⟨L, g1, g2⟩ := answer (V := V) hr hf rfl hI hn (hb fuel hfu) hs hC hP hfn h1 rfl h0
  obtain ⟨c', e1, -⟩ := extract_pure hS hmax (hb fuel hfu) hV hc g1
    (fun x hx hb => hI.model_state (checkCurrentState_nonneg (A := Arith.xr) hf (by
      cases p with
      | nil => have := hs.1; omega
      | cons _ _ => have := hs.1; omega)) hx hb)
  exact ⟨_, c', e1, g2.isNextChar h0⟩

/-- **C32** (the distributions exist) every context has a word distribution and a probability of the end,
and only one. -/
theorem C32_probabilities {m : Model XR} (hm : Scored m) {q : Nat} (hq : q < m.static.base.fst.states.length) :
    (∃ P : Int → ℝ, ∀ l w, IsWord m.static.base.symbols m.static.base.oov l w →
      WordProb m.static.base.fst l q (P l) ∧ 0 ≤ P l ∧ ∀ x, WordProb m.static.base.fst l q x → x = P l) ∧
    (∃ F, EndProb m.static.base.fst q F ∧ 0 ≤ F ∧ ∀ x, EndProb m.static.base.fst q x → x = F) := by
  have hS := hm.usable.toLoaded.sound hm.usable.labels
  obtain ⟨V, hV⟩ := Serves.exists hS hm.usable.acyclic
  obtain ⟨F, P, hC⟩ := hm.cumul hV hq
  refine ⟨?_, F, hC.fin, hC.fin.nonneg, fun x hx => hx.unique hC.fin⟩
  have hd := hm.usable.vocabulary.dense
  have : ∀ l, ∃ x, (∃ w, IsWord m.static.base.symbols m.static.base.oov l w) → WordProb m.static.base.fst l q x := by
    intro l
    by_cases h : ∃ w, IsWord m.static.base.symbols m.static.base.oov l w
    · obtain ⟨w, hw⟩ := h
      obtain ⟨j, hj⟩ := List.mem_iff_getElem?.1 (hd.mem_words.2 ⟨l, hw⟩)
      have := hC.prob j w hj
      rw [findLabel_of_mem hd.names hw.1] at this
      exact ⟨_, fun _ => this⟩
    · exact ⟨0, fun h' => absurd h' h⟩
  choose P hP using this
  exact ⟨P, fun l w hw => ⟨hP l ⟨w, hw⟩, (hP l ⟨w, hw⟩).nonneg, fun x hx => hx.unique (hP l ⟨w, hw⟩)⟩⟩

/-- **C32** (unknown words) at the out-of-vocabulary state and at states that do not exist,
`ExtractLMScores` succeeds and adds nothing to the response. -/
theorem C32_unknown {A : Arith} {m : Model A.C} (hm : Usable m) {encode : Int → Str}
    (he : Encodes encode m.static.base.symbols m.static.base.oov) :
    ∃ bound, ∀ fuel, bound ≤ fuel → ∀ I c, Uses encode fuel m.static m.imp m.cache I c →
      ∀ s, Stands m.static I s .unknown ∨ I.total ≤ s → ∀ resp,
      extractLMScores A fuel ⟨m.static, I, c⟩ s resp = .ok (true, resp, c) := by
  obtain ⟨bound, hb⟩ := enough_of_acyclic hm.acyclic
  obtain ⟨u, hu, hf, hB, hr, hi0⟩ := hm.toLoaded.fit
  obtain ⟨hmax, hc0⟩ := hm.toLoaded.cache hm.labels hm.hiOrder
  refine ⟨bound, fun fuel hfu I c h s hs resp => ?_⟩
  obtain ⟨hI, -, hc⟩ := h.inv hm he (hb fuel hfu) hi0 hc0
  have key : 0 ≤ s ∧ ¬ (s < m.static.base.fst.states.length) ∧
      (info I s = .ok none ∨ info I s = .ok (some ⟨-1, 1, -1, -1⟩)) := by
    have ht := hI.explicit_lt hf.unigram.2
    have hex := hI.explicit
    rcases hs with hs | hs
    · have : s = m.static.base.fst.states.length := by rw [show s = _ from hs, hf.oovState]
      refine ⟨by omega, by omega, .inr ?_⟩
      have := info_stored hI.wf hI.oov
      rw [hex] at this
      simpa [‹s = _›] using this
    · have htot := hI.wf.total
      refine ⟨by omega, by omega, .inl ?_⟩
      rcases info_cases hI.wf s with ⟨h1, -⟩ | ⟨i, x, h1, h2, -⟩ | ⟨-, h2⟩
      · omega
      · have := lt_of_getElem?_eq_some h2
        have := hI.wf.total
        omega
      · exact h2
  obtain ⟨k0, k1, k2⟩ := key
  simp only [extractLMScores, NGram.checkCurrentState, if_neg (show s ≠ -1 by omega), getNextCharEnds, if_neg k1]
  rcases k2 with k2 | k2 <;> rw [k2] <;> rfl

/-- **C32** (state -1) `ExtractLMScores` takes -1 for the unigram state. -/
theorem C32_no_state {A : Arith} {m : Model A.C} (hm : Usable m) {I : Implicit} {c : Cache A.C} (fuel : Nat)
    (resp : LMScores A.D) :
    extractLMScores A fuel ⟨m.static, I, c⟩ (-1) resp =
      extractLMScores A fuel ⟨m.static, I, c⟩ m.static.base.unigram resp := by
  obtain ⟨u, hu, -⟩ := hm.toLoaded.fit
  simp only [extractLMScores, NGram.checkCurrentState, if_true, hu, if_neg (show ¬ ((u : Int) = -1) by omega)]

/-! ### `SymLMScore` -/

theorem findScore_listed {c : Nat} (hc : c ≠ 0) : ∀ (ss : List Str) (xs : List ℝ), ss.Nodup →
    xs.length = ss.length → (∀ s ∈ ss, s = [] ∨ ∃ c : Nat, s = [c]) → (∀ x ∈ xs, 0 ≤ x) →
    ∃ y, findScore Arith.xr c ss (xs.map .fin) = .ok y ∧
      (∀ (i : Nat) x, ss[i]? = some [c] → xs[i]? = some x → y = costOf x) ∧ ([c] ∉ ss → y = pinf) := by
  intro ss
  induction ss with
  | nil =>
    intro xs _ h _ _
    have : xs = [] := List.length_eq_zero_iff.1 (by simpa using h)
    subst this
    exact ⟨_, rfl, by simp, fun _ => rfl⟩
  | cons s ss ih =>
    intro xs hnd hl hs h0
    cases xs with
    | nil => simp at hl
    | cons x xs =>
      rw [List.nodup_cons] at hnd
      by_cases hsc : s = [c]
      · subst hsc
        refine ⟨costOf x, ?_, ?_, by simp⟩
        · simp only [List.map_cons, findScore, decodeSingle, Option.getD_some, if_true]
          rw [negLog_fin (h0 x (by simp))]
        · intro i z h1 h2
          cases i with
          | zero => cases h2; rfl
          | succ i => exact absurd (List.mem_of_getElem? (l := ss) (i := i) (by simpa using h1)) hnd.1
      · obtain ⟨y, g1, g2, g3⟩ := ih xs hnd.2 (by simpa using hl) (fun s h => hs s (by simp [h]))
          (fun x h => h0 x (by simp [h]))
        refine ⟨y, ?_, ?_, ?_⟩
        · rw [← g1]
          rcases hs s (by simp) with rfl | ⟨d, rfl⟩
          · show (if (c : Int) = 0 then _ else _) = _
            exact if_neg (by omega)
          · show (if (c : Int) = (d : Int) then _ else _) = _
            refine if_neg ?_
            intro h
            apply hsc
            have : c = d := by omega
            rw [this]
        · intro i z h1 h2
          cases i with
          | zero => exact absurd (Option.some.inj h1) hsc
          | succ i => exact g2 i z h1 h2
        · intro h
          exact g3 (fun h' => h (by simp [h']))

/-- **C32** (single characters) whenever `ExtractLMScores` answers a next-character distribution,
`SymLMScore` of a character (not 0) is minus the logarithm of the probability listed for it, infinite if it
is not listed. -/
theorem C32_score {m : Model XR} {I : Implicit} {c c' : Cache XR} {fuel : Nat} {s : Int} {r : LMScores XR}
    (hx : extractLMScores Arith.xr fuel ⟨m.static, I, c⟩ s (noScores Arith.xr) = .ok (true, r, c'))
    {t : SymbolTable} {oov : Int} {P : Int → ℝ} {F fn : ℝ} {p : Str} (hr : IsNextChar t oov P F fn p r)
    {ch : Nat} (h0 : ch ≠ 0) :
    ∃ y, symLMScore Arith.xr fuel ⟨m.static, I, c⟩ s ch = .ok (y, c') ∧
      (∀ x, Listed r [ch] x → y = costOf x) ∧ ((∀ x, ¬ Listed r [ch] x) → y = pinf) := by
  obtain ⟨xs, h1, h2, h3, -⟩ := hr.dist
  obtain ⟨y, g1, g2, g3⟩ := findScore_listed h0 r.symbols xs hr.once h2 hr.single h3
  refine ⟨y, ?_, ?_, ?_⟩
  · simp only [symLMScore, hx, ok_bind, if_true, h1, g1]
  · rintro x ⟨i, a1, a2⟩
    rw [h1, List.getElem?_map] at a2
    obtain ⟨z, hz, he⟩ := Option.map_eq_some_iff.1 a2
    rw [← XR.fin.inj he]
    exact g2 i z a1 hz
  · intro hn
    apply g3
    intro hm
    obtain ⟨i, hi⟩ := List.mem_iff_getElem?.1 hm
    have hlt := lt_of_getElem?_eq_some hi
    obtain ⟨x, hx⟩ := exists_getElem?_of_lt (l := xs) (i := i) (by omega)
    exact hn x ⟨i, hi, by rw [h1]; simp [hx]⟩

/-! ## A model meeting the hypotheses

The automaton of `demoFst` with weights: the probabilities of "b", "ab", "a" and the end are 1/4 each at the
unigram state 0; 1/8, 5/8, 1/8, 1/8 at the start state 1 and 1/8, 1/8, 1/4, 1/2 at state 2. -/

noncomputable def demoFstR : Fst XR :=
  { start := 1
    states := [ { final := costOf (1/4), arcs := [⟨1, costOf (1/4), 0⟩, ⟨2, costOf (1/4), 2⟩, ⟨3, costOf (1/4), 0⟩] },
                { final := pinf, arcs := [⟨0, costOf (1/2), 0⟩, ⟨2, costOf (5/8), 2⟩] },
                { final := costOf (1/2), arcs := [⟨0, costOf (1/2), 0⟩, ⟨3, costOf (1/4), 0⟩] } ] }

noncomputable def demoSourceR : NGram.Source XR :=
  { noFile := false, fst := some demoFstR, inSymbols := some demoVocab, noVocabulary := true
    vocabulary := none, canonical := fun _ => true, normalized := fun _ => true, maxOrder := fun _ => 2 }

noncomputable def demoBaseR : NGram.Model XR :=
  { fst := demoFstR, symbols := demoVocab, oov := -1, unigram := 0, hiOrder := 2 }

theorem demoR_closed : NGram.Closed demoFstR := by
  refine ⟨by decide, ?_⟩
  simp [demoFstR]

theorem demoR_backoff {s : Nat} {w : XR} {t : Nat} (h : IsBackoff demoFstR s w t) :
    (s = 1 ∨ s = 2) ∧ t = 0 ∧ w = costOf (1/2) := by
  obtain ⟨st, pre, post, h1, h2, _⟩ := h
  have hm : (⟨0, w, t⟩ : Arc XR) ∈ st.arcs := by rw [h2]; simp
  match s, h1 with
  | 0, h1 => cases h1; simp at hm
  | 1, h1 => cases h1; simp at hm; exact ⟨.inl rfl, hm.2, by rw [hm.1]; norm_num⟩
  | 2, h1 => cases h1; simp at hm; exact ⟨.inr rfl, hm.2, by rw [hm.1]; norm_num⟩
  | n + 3, h1 => simp [demoFstR] at h1

theorem demoR_acyclic : NGram.Acyclic demoFstR := by
  refine ⟨fun s => if s = 0 then 0 else 1, ?_⟩
  intro s w t h
  obtain ⟨h1, rfl, -⟩ := demoR_backoff h
  rcases h1 with rfl | rfl <;> decide

theorem demoR_weighted : Weighted demoFstR := by
  intro st hst
  simp only [demoFstR, List.mem_cons, List.not_mem_nil, or_false] at hst
  rcases hst with rfl | rfl | rfl
  · refine ⟨⟨1/4, by norm_num, rfl⟩, ?_⟩
    intro a ha
    simp only [List.mem_cons, List.not_mem_nil, or_false] at ha
    rcases ha with rfl | rfl | rfl <;> exact ⟨1/4, by norm_num, rfl⟩
  · refine ⟨⟨0, le_refl _, costOf_zero.symm⟩, ?_⟩
    intro a ha
    simp only [List.mem_cons, List.not_mem_nil, or_false] at ha
    rcases ha with rfl | rfl
    · exact ⟨1/2, by norm_num, rfl⟩
    · exact ⟨5/8, by norm_num, rfl⟩
  · refine ⟨⟨1/2, by norm_num, rfl⟩, ?_⟩
    intro a ha
    simp only [List.mem_cons, List.not_mem_nil, or_false] at ha
    rcases ha with rfl | rfl
    · exact ⟨1/2, by norm_num, rfl⟩
    · exact ⟨1/4, by norm_num, rfl⟩

/-- The files load, as a scored model. -/
theorem demoR_scored : ∃ m, Scored m ∧ m.static.base = demoBaseR ∧ startState (A := Arith.xr) m = 1 := by
  obtain ⟨bound, h⟩ := C64_loads (A := Arith.xr) (src := demoSourceR) (b := demoBaseR) (by rfl) demo_vocabulary
    demoR_closed demoR_acyclic (by simp [InTable, demoBaseR, demoFstR, demoVocab]) (by simp [demoBaseR]) 5
  obtain ⟨m, -, h1, h2, h3, -⟩ := h bound (Nat.le_refl _)
  refine ⟨m, ⟨h1, ?_, ?_, ?_⟩, h2, h3⟩
  · rw [h2]; exact demoR_weighted
  · rw [h2]; simp [Deterministic, demoBaseR, demoFstR]
  · rw [h2]
    intro q st _ _ _ h
    simp [demoBaseR] at h

/-- After typing "a" from the start state, the model answers "b" with probability 5/6, the space with 1/8
and the end of the text with 1/24. -/
theorem demoR_answer : ∃ m, Scored m ∧ m.static.base = demoBaseR ∧ ∃ fuel I c s r c',
    Uses (A := Arith.xr) (fun c => if c < 0 then [] else [c.toNat]) fuel m.static m.imp m.cache I c ∧
    Stands m.static I s (.word 1 [97]) ∧
    extractLMScores Arith.xr fuel ⟨m.static, I, c⟩ s (noScores Arith.xr) = .ok (true, r, c') ∧
    Listed r [98] (5/6) ∧ Listed r [32] (1/8) ∧ Listed r [] (1/24) := by
  obtain ⟨m, hm, hb, -⟩ := demoR_scored
  refine ⟨m, hm, hb, ?_⟩
  have he : Encodes (fun c => if c < 0 then [] else [c.toNat]) m.static.base.symbols m.static.base.oov := by
    rw [hb]; exact demo_encodes
  obtain ⟨b1, h1⟩ := C31_typing hm.usable.toLoaded he
  obtain ⟨b2, h2⟩ := C32_marginals hm he
  have hu : m.static.base.unigram = (0 : Nat) := by rw [hb]; rfl
  obtain ⟨s, I, e1, e2, -⟩ := h1 (max b1 b2) (by omega) m.imp (.refl _) 0 1 97 (.word 1 []) (.word 1 [97]) hu
    (by decide) ⟨rfl, by rw [hb]; decide⟩
    (.letter (p := []) (c := 97) ⟨3, [97], by rw [hb]; exact (demo_word _ _).2 (by simp), by simp⟩)
  have hU : Uses (A := Arith.xr) (fun c => if c < 0 then [] else [c.toNat]) (max b1 b2) m.static m.imp m.cache I
    m.cache := .next (.refl _ _) (by decide) e1
  have hbo : IsBackoff demoFstR 1 (costOf (1/2)) 0 := ⟨_, [], [⟨2, costOf (5/8), 2⟩], rfl, rfl, by simp⟩
  have no : ∀ l : Int, l ≠ 0 → l ≠ 2 → NoArc demoFstR 1 l := by
    intro l h0 h2 st hst a ha
    simp only [demoFstR, List.getElem?_cons_succ, List.getElem?_cons_zero, Option.some.injEq] at hst
    subst hst
    simp only [List.mem_cons, List.not_mem_nil, or_false] at ha
    rcases ha with rfl | rfl
    · exact fun h => h0 h.symm
    · exact fun h => h2 h.symm
  have hP : ∀ l w, IsWord demoVocab (-1) l w →
      WordProb demoFstR l 1 ((fun l => if l = 2 then 5/8 else 1/8) l) := by
    intro l w hw
    rcases (demo_word l w).1 hw with ⟨rfl, _⟩ | ⟨rfl, _⟩ | ⟨rfl, _⟩
    · have := WordProb.back (no 1 (by decide) (by decide)) (by norm_num) hbo
        (.arc (p := 1/4) (d := 0) (by norm_num) ⟨_, [], _, rfl, rfl, by simp⟩)
      norm_num at this ⊢
      exact this
    · have : WordProb demoFstR 2 1 (5/8) := .arc (d := 2) (by norm_num) ⟨_, [⟨0, costOf (1/2), 0⟩], [], rfl, rfl, by simp⟩
      simpa using this
    · have := WordProb.back (no 3 (by decide) (by decide)) (by norm_num) hbo
        (.arc (p := 1/4) (d := 0) (by norm_num) ⟨_, [⟨1, costOf (1/4), 0⟩, ⟨2, costOf (1/4), 2⟩], [], rfl, rfl, by simp⟩)
      norm_num at this ⊢
      exact this
  have hF0 : EndProb demoFstR 0 (1/4) := .final rfl (by norm_num) rfl
  have hF : EndProb demoFstR 1 (1/2 * (1/4)) := .back rfl rfl (by norm_num) hbo hF0
  have hmass : ∀ p : Str, mass demoVocab (-1) (fun l => if l = 2 then 5/8 else 1/8) p =
      (if p <+: [98] then 1/8 else 0) + (if p <+: [97, 98] then 5/8 else 0) + (if p <+: [97] then 1/8 else 0) := by
    intro p
    simp only [mass, demoVocab]
    by_cases a1 : p <+: [98] <;> by_cases a2 : p <+: [97, 98] <;> by_cases a3 : p <+: [97] <;>
      simp [a1, a2, a3] <;> norm_num
  have hw : weight demoVocab (-1) (fun l => if l = 2 then 5/8 else 1/8) (1/2 * (1/4)) [97] = 3/4 := by
    rw [weight, hmass]
    simp
    norm_num
  obtain ⟨r, c', g1, g2⟩ := h2 (max b1 b2) (by omega) I m.cache hU 0 s 1 [97]
    (fun l => if l = 2 then 5/8 else 1/8) (1/2 * (1/4)) (1/4) hu e2 (by rw [hb]; exact hP) (by rw [hb]; exact hF)
    (by
      rw [hb]
      intro l d hl hd
      rcases (demo_word l _).1 hl with ⟨_, h⟩ | ⟨_, h⟩ | ⟨rfl, _⟩
      · cases h
      · cases h
      · suffices d = 0 by rw [this]; exact hF0
        rcases hd with ⟨ws, w, t, -, ⟨st, pre, post, k1, k2, -⟩, -⟩ | ⟨-, rfl⟩
        · have ha : (⟨3, w, d⟩ : Arc XR) ∈ st.arcs := by rw [k2]; simp
          have hst := List.mem_of_getElem? k1
          simp only [demoBaseR, demoFstR, List.mem_cons, List.not_mem_nil, or_false] at hst
          rcases hst with rfl | rfl | rfl <;> simp at ha <;> exact ha.2
        · rfl)
    (by norm_num) (by rw [hb]; exact hw ▸ (by norm_num))
  rw [hb] at g2
  refine ⟨_, I, m.cache, s, r, c', hU, e2, g1, ?_, ?_, ?_⟩
  · refine (g2.letter 98 _ (by decide)).2 ⟨⟨2, [97, 98], (demo_word _ _).2 (by simp), by simp⟩, ?_⟩
    rw [show weight demoBaseR.symbols demoBaseR.oov _ _ [97] = 3/4 from hw]
    rw [show mass demoBaseR.symbols demoBaseR.oov _ ([97] ++ [98]) = _ from hmass _]
    simp
    norm_num
  · refine (g2.space _).2 ⟨3, (demo_word _ _).2 (by simp), ?_⟩
    rw [show weight demoBaseR.symbols demoBaseR.oov _ _ [97] = 3/4 from hw]
    norm_num
  · refine (g2.stop _).2 (.inr ⟨3, (demo_word _ _).2 (by simp), by norm_num, ?_⟩)
    rw [show weight demoBaseR.symbols demoBaseR.oov _ _ [97] = 3/4 from hw]
    norm_num

end Mozolm.Word
