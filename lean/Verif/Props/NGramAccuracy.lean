import Verif.NGram.Accuracy
import Verif.System.Live
import Verif.Binary64
import Verif.Props.PpmAccuracyDemo

/-!
# C92: accuracy of the character n-gram model with rounding
-/

namespace Mozolm.NGram
open XR Real Ppm

variable {φ : Prop} {ε δ : ℝ}

/-- **C92** The model with rounding is read from the same file, and is the same automaton. -/
theorem C92_read (F : Rounding φ ε δ) (src : Source XR) : read F.arith src = read Arith.xr src := by
  unfold read
  cases src.noFile with
  | true => rfl
  | false =>
    cases src.fst with
    | none => rfl
    | some f =>
      cases symbolTable src with
      | none => rfl
      | some t =>
        have hg : (getBackoff F.arith f f.start : Except Fault (Int × XR)) = getBackoff Arith.xr f f.start := getBackoff_same _
        simp only [hg]

/-- **C92** Let an automaton have costs as weights, arcs to existing states, and backoff that leads from no state further than
`n` steps. At every state, for every character: the next state is the same with rounding and without; the cost of the character is the same
within `n + 1` roundings; if every string may end, so are the listed symbols, and the logarithms of the probabilities are the same within
`2 (n + 1)` roundings, one for every symbol, and one of the conversion to a probability – unless a flag was raised. -/
theorem C92_accuracy (F : Rounding φ ε δ) (hε : 0 ≤ ε) (hδ : δ < 1) {m : Model XR} (hc : Closed m.fst) (ha : Acyclic m.fst) (hw : Weighted m.fst)
    (hu : 0 ≤ m.unigram ∧ m.unigram < m.fst.states.length) {n : Nat} (hd : Deep m.fst n) :
    ∃ bound, ∀ fuel, bound ≤ fuel → ∀ (encode : Int → Str) (s : Nat), s < m.fst.states.length →
      (∀ sym : Int, ∃ t : Int, nextState (A := F.arith) encode fuel m s sym = .ok t ∧ nextState (A := Arith.xr) encode fuel m s sym = .ok t ∧
        0 ≤ t ∧ t < m.fst.states.length) ∧
      (∀ sym : Int, ∃ c c' : XR, symLMScore (A := F.arith) encode fuel m s sym = .ok c ∧ symLMScore (A := Arith.xr) encode fuel m s sym = .ok c' ∧
        CostTwin φ (symbolError ε n) c c') ∧
      (Ends m.fst → ∃ r r' : LMScores XR, extractLMScores (A := F.arith) fuel m s = .ok r ∧ extractLMScores (A := Arith.xr) fuel m s = .ok r' ∧
        ScoresTwin φ (shareError ε δ n (m.symbols.tail.length + 1)) (slack δ) r r') := by
  obtain ⟨bound, hb⟩ := Word.enough_of_acyclic (A := Arith.xr) ha
  refine ⟨bound, fun fuel hf encode s hs => ?_⟩
  have hl : System.CharLive (A := Arith.xr) fuel m := ⟨hc, hb fuel hf, hu⟩
  refine ⟨fun sym => ?_, fun sym => ?_, fun he => ?_⟩
  · obtain ⟨t, h1, h2, h3⟩ := hl.next encode sym hs
    refine ⟨t, ?_, h1, h2, h3⟩
    rw [← h1]
    exact nextModelState_twin _ _ _ _
  · obtain ⟨c', h1⟩ := System.labelCost_total (A := Arith.xr) hc hl.enough hs (symLabel (A := Arith.xr) encode m sym)
    obtain ⟨c, h2, h3⟩ := (labelCost_twin (F := F) hε hw hd s fuel (symLabel (A := Arith.xr) encode m sym)).of_ok' h1
    exact ⟨c, c', h2, h1, h3⟩
  · obtain ⟨r', h1, _⟩ := hl.extract hs
    obtain ⟨r, h2, h3⟩ := (extract_twin (F := F) hε hδ hw he hd fuel (s := s) (c := s) (System.check_nat (A := Arith.xr) m s)).of_ok' h1
    exact ⟨r, r', h2, h1, h3⟩

/-- **C92** Without flags the probabilities served are numbers, not negative, and their sum is one within the same error. -/
theorem C92_distribution (F : Rounding False ε δ) (hε : 0 ≤ ε) (hδ : δ < 1) {m : Model XR} (hc : Closed m.fst) (ha : Acyclic m.fst)
    (hw : Weighted m.fst) (hu : 0 ≤ m.unigram ∧ m.unigram < m.fst.states.length) {n : Nat} (hd : Deep m.fst n) (he : Ends m.fst) {eps : Str}
    {rest : SymbolTable} (ht : m.symbols = (0, eps) :: rest) (hn : (m.symbols.map Prod.fst).Nodup) (hneg : ∀ e ∈ rest, e.1 ≠ -1) :
    ∃ bound, ∀ fuel, bound ≤ fuel → ∀ s : Nat, s < m.fst.states.length → ∃ (r : LMScores XR) (xs : List ℝ),
      extractLMScores (A := F.arith) fuel m s = .ok r ∧ r.symbols = [] :: rest.map Prod.snd ∧ r.probs = xs.map XR.fin ∧ (∀ x ∈ xs, 0 ≤ x) ∧
      exp (-shareError ε δ n (rest.length + 1)) ≤ xs.sum ∧ xs.sum ≤ exp (shareError ε δ n (rest.length + 1)) := by
  obtain ⟨b1, h1⟩ := C92_accuracy F hε hδ hc ha hw hu hd
  choose! b2 h2 using fun (s : Nat) (hs : s < m.fst.states.length) =>
    C35_distribution hc ha hw ht hn hneg (s := s) (c := s) (System.check_nat (A := Arith.xr) m s) hs
  obtain ⟨B, hB⟩ : ∃ B, ∀ s < m.fst.states.length, b2 s ≤ B := by
    generalize m.fst.states.length = k
    induction k with
    | zero => exact ⟨0, fun s hs => by omega⟩
    | succ k ih =>
      obtain ⟨B, hB⟩ := ih
      refine ⟨max B (b2 k), fun s hs => ?_⟩
      by_cases h : s = k
      · subst h; omega
      · have := hB s (by omega); omega
  refine ⟨max b1 B, fun fuel hf s hs => ?_⟩
  obtain ⟨r, r', e1, e2, e3⟩ := (h1 fuel (by omega) (fun _ => []) s hs).2.2 he
  obtain ⟨ps, p1, p2, p3⟩ := h2 s hs fuel (by have := hB s hs; omega)
  have hpos : 0 < ps.sum := by
    cases p2 with
    | @cons l p ls ps h0 hrest =>
      have h0' : finalCostInState Arith.xr m.fst fuel s = .ok (costOf p) := by
        unfold labelCostInState at h0; rw [if_pos rfl] at h0; exact h0
      obtain ⟨x, hx⟩ := ends_finite hw he fuel s h0'
      have hp0 : 0 < p := by
        rcases (p1 p (by simp)).eq_or_lt with h | h
        · rw [← h, costOf_zero] at hx; cases hx
        · exact h
      rw [List.sum_cons]
      have := Scores.sum_nonneg' (l := ps) (fun q hq => p1 q (by simp [hq]))
      linarith
  obtain ⟨r2, q1, q2, q3, q4, q5, _⟩ := p3 hpos
  rw [e2] at q1
  cases q1
  have hlen : m.symbols.tail.length = rest.length := by rw [ht]; rfl
  rw [hlen] at e3
  have key : ∀ (l : List XR) (qs : List ℝ), Pointwise (NumTwin False (shareError ε δ n (rest.length + 1))) l (qs.map XR.fin) →
      ∃ xs : List ℝ, l = xs.map XR.fin ∧ (∀ x ∈ xs, 0 ≤ x) ∧ qs.sum * exp (-shareError ε δ n (rest.length + 1)) ≤ xs.sum ∧
        xs.sum ≤ qs.sum * exp (shareError ε δ n (rest.length + 1)) := by
    intro l qs
    induction qs generalizing l with
    | nil => intro h; cases h; exact ⟨[], rfl, by simp, by simp, by simp⟩
    | cons q qs ih =>
      intro h
      cases h with
      | @cons x _ l _ hx hl =>
        obtain ⟨xs, i1, i2, i3, i4⟩ := ih _ hl
        obtain ⟨p, hp0, hpq, hv⟩ := hx
        cases hpq
        rcases hv with ⟨hf, _⟩ | ⟨y, rfl, y1, y2⟩
        · exact hf.elim
        · refine ⟨y :: xs, by rw [i1]; rfl, ?_, ?_, ?_⟩
          · intro z hz
            rcases List.mem_cons.1 hz with rfl | hz
            · exact le_trans (by positivity) y1
            · exact i2 z hz
          · rw [List.sum_cons, List.sum_cons, add_mul]; linarith
          · rw [List.sum_cons, List.sum_cons, add_mul]; linarith
  have hm : r'.probs = (ps.map fun p => p / ps.sum).map XR.fin := by rw [q3, List.map_map]; rfl
  obtain ⟨xs, x1, x2, x3, x4⟩ := key r.probs (ps.map fun p => p / ps.sum) (hm ▸ e3.probs)
  rw [q5, one_mul] at x3 x4
  exact ⟨r, xs, e1, by rw [e3.symbols, q2], x1, x2, x3, x4⟩

/-- **C92** In numbers: order up to ten, up to a thousand symbols, arithmetic as precise as binary64 with costs below `2 ^ 10`: the logarithms of the
probabilities are within 1/7000000000 of what they are without rounding. -/
theorem C92_thousand (F : Rounding φ ε δ) (hε : 0 ≤ ε) (hε1 : ε ≤ 2 ^ (-43 : Int)) (hδ0 : 0 ≤ δ) (hδ1 : δ ≤ 2 ^ (-53 : Int)) {m : Model XR}
    (hc : Closed m.fst) (ha : Acyclic m.fst) (hw : Weighted m.fst) (hu : 0 ≤ m.unigram ∧ m.unigram < m.fst.states.length)
    (hd : Deep m.fst 9) (he : Ends m.fst) (hk : m.symbols.tail.length ≤ 1000) :
    ∃ bound, ∀ fuel, bound ≤ fuel → ∀ (s : Nat), s < m.fst.states.length → ∃ r r' : LMScores XR,
      extractLMScores (A := F.arith) fuel m s = .ok r ∧ extractLMScores (A := Arith.xr) fuel m s = .ok r' ∧
      ScoresTwin φ (1 / 7000000000) (1 / 7000000000) r r' := by
  have e1 : (2 : ℝ) ^ (-43 : Int) ≤ 1 / 8000000000000 := by norm_num
  have e2 : (2 : ℝ) ^ (-53 : Int) ≤ 1 / 8000000000000000 := by norm_num
  replace hε1 := hε1.trans e1
  replace hδ1 := hδ1.trans e2
  clear e1 e2
  obtain ⟨b, h⟩ := C92_accuracy F hε (by linarith) hc ha hw hu hd
  refine ⟨b, fun fuel hf s hs => ?_⟩
  obtain ⟨r, r', h1, h2, h3⟩ := (h fuel hf (fun _ => []) s hs).2.2 he
  have hsl := slack_le hδ0 (by linarith)
  have hk' : ((m.symbols.tail.length + 1 : Nat) : ℝ) ≤ 1001 := by exact_mod_cast (by omega : m.symbols.tail.length + 1 ≤ 1001)
  have hke : ((m.symbols.tail.length + 1 : Nat) : ℝ) * ε ≤ 1001 * (1 / 8000000000000) := mul_le_mul hk' hε1 hε (by norm_num)
  refine ⟨r, r', h1, h2, h3.le ?_ (by linarith)⟩
  unfold shareError symbolError
  norm_num at hke ⊢
  linarith

/-- a model over the automaton of C35 -/
noncomputable def demoModel : Model XR := ⟨demoXR, [(0, [101]), (1, [97])], -1, 0, 2⟩

theorem demoXR_backoff {s : Nat} {w : XR} {t : Nat} (h : IsBackoff demoXR s w t) : s = 1 ∧ w = .fin 3 ∧ t = 0 := by
  obtain ⟨st, pre, post, h1, h2, h3, _⟩ := h
  have hm : (⟨0, w, t⟩ : Arc XR) ∈ st.arcs := by rw [h2]; simp
  match s, h1 with
  | 0, h1 => cases h1; simp at hm
  | 1, h1 => cases h1; simp at hm; simp [hm.1, hm.2]
  | n + 2, h1 => simp [demoXR] at h1

theorem demoXR_deep : Deep demoXR 1 := by
  intro s ws t h
  cases h with
  | here => simp
  | step hb h =>
    cases h with
    | here => simp
    | step hb' _ =>
      have h1 := demoXR_backoff hb
      have h2 := demoXR_backoff hb'
      omega

theorem demoXR_ends : Ends demoXR := by
  refine ⟨fun s w t h => ⟨3, (demoXR_backoff h).2.1⟩, fun s st hs hn => ?_⟩
  match s, hs with
  | 0, hs => cases hs; exact ⟨1, rfl⟩
  | 1, hs =>
    cases hs
    exact absurd ⟨_, [], _, rfl, rfl, by decide, by simp⟩ (hn (.fin 3) 0)
  | n + 2, hs => simp [demoXR] at hs

theorem demoXR_ok : Closed demoXR ∧ Acyclic demoXR ∧ Weighted demoXR := by
  refine ⟨⟨by simp [demoXR], by simp [demoXR]⟩, ⟨id, fun s w t h => ?_⟩, ?_⟩
  · obtain ⟨rfl, _, rfl⟩ := demoXR_backoff h; simp
  · intro st hst
    simp only [demoXR, List.mem_cons, List.not_mem_nil, or_false] at hst
    have hf : ∀ r : ℝ, ∃ p, 0 ≤ p ∧ XR.fin r = costOf p := fun r => ⟨_, (Real.exp_pos _).le, fin_eq_costOf r⟩
    rcases hst with rfl | rfl
    · refine ⟨hf 1, ?_⟩
      intro a ha
      simp only [List.mem_cons, List.not_mem_nil, or_false] at ha
      subst ha
      exact hf 2
    · refine ⟨⟨0, le_refl _, costOf_zero.symm⟩, ?_⟩
      intro a ha
      simp only [List.mem_cons, List.not_mem_nil, or_false] at ha
      rcases ha with rfl | rfl
      · exact hf 3
      · exact hf 1

/-- C92_accuracy, C92_distribution, C92_thousand: the hypotheses are met; at state 1 the end of string is found by backing off. -/
example : ∃ bound, ∀ fuel, bound ≤ fuel → ∃ r r' : LMScores XR, extractLMScores (A := (binary64 10).arith) fuel demoModel 1 = .ok r ∧
    extractLMScores (A := Arith.xr) fuel demoModel 1 = .ok r' ∧ ScoresTwin True (1 / 7000000000) (1 / 7000000000) r r' := by
  have hd : Deep demoModel.fst 9 := fun s ws t h => le_trans (demoXR_deep s ws t h) (by norm_num)
  obtain ⟨b, h⟩ := C92_thousand (binary64 10) (by positivity) (by norm_num) (by positivity) (by norm_num) (m := demoModel) demoXR_ok.1 demoXR_ok.2.1
    demoXR_ok.2.2 ⟨le_rfl, by simp [demoModel, demoXR]⟩ hd demoXR_ends (by simp [demoModel])
  exact ⟨b, fun fuel hf => h fuel hf 1 (by simp [demoModel, demoXR])⟩

example (g : Nat) : ∃ bound, ∀ fuel, bound ≤ fuel → ∃ (r : LMScores XR) (xs : List ℝ),
    extractLMScores (A := (fixed64 g).arith) fuel demoModel 1 = .ok r ∧ r.symbols = [[], [97]] ∧ r.probs = xs.map XR.fin ∧ (∀ x ∈ xs, 0 ≤ x) := by
  obtain ⟨b, h⟩ := C92_distribution (fixed64 g) (by positivity) (by norm_num) (m := demoModel) demoXR_ok.1 demoXR_ok.2.1
    demoXR_ok.2.2 ⟨le_rfl, by simp [demoModel, demoXR]⟩ demoXR_deep demoXR_ends (eps := [101]) (rest := [(1, [97])]) rfl (by decide) (by simp)
  refine ⟨b, fun fuel hf => ?_⟩
  obtain ⟨r, xs, h1, h2, h3, h4, _⟩ := h fuel hf 1 (by simp [demoModel, demoXR])
  exact ⟨r, xs, h1, h2, h3, h4⟩

end Mozolm.NGram
