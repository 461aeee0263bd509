import Verif.Ppm.Near

/-! # The PPM model with rounding and without, through a history of calls -/

namespace Mozolm.Ppm
open XR Real
open scoped BigOperators

section
variable {φ : Prop} {ε δ : ℝ} {F : Rounding φ ε δ} {hε : 0 ≤ ε} {alpha beta T K : ℝ} {hb : 0 < beta} {hb1 : beta * exp (2 * ε) < 1}
variable {V N : Nat} {mF mF' : Model F.arith} {m m' : Model Arith.xr}

theorem wrap_ok {A : Arith} {β γ : Type} {k : β → γ} {f : Model A → Except Fault (β × Model A)} {m m' : Model A} {c : γ}
    (h : wrap k f m = .ok (c, m')) : ∃ b, f m = .ok (b, m') ∧ c = k b := by
  unfold wrap at h
  match hf : f m, h with
  | .ok (b, m1), h =>
    simp only [Except.ok.injEq, Prod.mk.injEq] at h
    exact ⟨b, by rw [h.2], h.1.symm⟩

theorem OptTwin.mono {α γ : Type} {Q Q' : α → γ → Prop} {a : Option α} {b : Option γ} (h : OptTwin Q a b) (hq : ∀ a b, Q a b → Q' a b) :
    OptTwin Q' a b := by
  cases h with
  | none => exact .none
  | some h => exact .some (hq _ _ h)

theorem pointwise_of {α γ : Type} {Q : α → γ → Prop} : ∀ {l : List α} {l' : List γ}, l.length = l'.length →
    (∀ (i : Nat) (a : α) (b : γ), l[i]? = some a → l'[i]? = some b → Q a b) → Pointwise Q l l'
  | [], [], _, _ => .nil
  | [], _ :: _, h, _ => by cases h
  | _ :: _, [], h, _ => by cases h
  | a :: l, b :: l', h, hq => .cons (hq 0 a b rfl rfl) (pointwise_of (by simpa using h) fun i a b h1 h2 => hq (i + 1) a b h1 h2)

theorem scores_near (hδ0 : 0 ≤ δ) (hδ1 : δ < 1) (ha : 0 < alpha) (hK0 : 0 ≤ K) (hK : beta * exp ((T + 1) * ε) * (K + 1) ≤ K)
    (h : Tandem F hε hb hb1 alpha V N mF m) (hT : Within T V m.core.fst) {s : Nat} (hs : s < mF.core.fst.states.length)
    {rF : Option (LMScores F.arith.D)} {r : Option (LMScores Arith.xr.D)}
    (hF : extractLMScores (s : Int) mF = .ok (rF, mF')) (hR : extractLMScores (s : Int) m = .ok (r, m')) :
    AnswerNear F (scoreError ε δ T K V N) (scoreError ε δ T K V N + slack δ) ((T + V + 1) * ε + slack δ) (.scores rF) (.scores r) := by
  obtain ⟨dF, d, p, n, x1, x2, x3, x4, x5, x6⟩ := h.data hδ0 hδ1 ha hK0 hK hT hs
  obtain ⟨ordF, uF, iF⟩ := h.rounded
  obtain ⟨ord, u, i⟩ := h.plain
  have hs' : s < m.core.fst.states.length := by rw [h.twin.core.fst.length]; exact hs
  obtain ⟨qF, f1, f2, f3, f4⟩ := fill_ok x2 mF.symbols
  obtain ⟨q, g1, g2, g3, g4⟩ := fill_ok x4 m.symbols
  obtain ⟨_, k1, _⟩ := extract_query (g := mF.sig) iF.laws iF.wf hs x1 f1 mF rfl iF.cache
  obtain ⟨_, l1, _⟩ := extract_query (g := m.sig) i.laws i.wf hs' x3 g1 m rfl i.cache
  rw [hF] at k1; rw [hR] at l1
  simp only [Except.ok.injEq, Prod.mk.injEq] at k1 l1
  rw [k1.1, l1.1]
  refine .scores ?_ ?_ ?_
  · rw [f4, g4, h.twin.symbols]
  · rw [f3, g3]
    refine pointwise_of (by rw [List.length_map, List.length_map, x2.2.2, x4.2.2]) fun y c c' h1 h2 => ?_
    have hy : y < V + 1 := by
      have := lt_of_getElem?_eq_some h1
      rw [List.length_map, x2.2.2] at this; exact this
    obtain ⟨w, hw, hn⟩ := x6.costs.near y hy
    rw [List.getElem?_map, hw] at h1
    rw [x5.costs, List.getElem?_map, List.getElem?_map, List.getElem?_range hy] at h2
    simp only [Option.map_some, Option.some.injEq] at h1 h2
    subst h1; subst h2
    have hp := x5.pos y (by omega)
    exact ⟨p y, hp, expNeg_costOf hp.le, hn.prob F hδ1⟩
  · rw [f2, g2, x5.norm]
    exact ⟨n, x5.norm_pos, expNeg_costOf x5.norm_pos.le, x6.norm.prob F hδ1⟩

theorem score_near (hδ0 : 0 ≤ δ) (hδ1 : δ < 1) (ha : 0 < alpha) (hK0 : 0 ≤ K) (hK : beta * exp ((T + 1) * ε) * (K + 1) ≤ K)
    (h : Tandem F hε hb hb1 alpha V N mF m) (hT : Within T V m.core.fst) {s : Nat} (hs : s < mF.core.fst.states.length)
    {encode : Int → Str} {sym : Int} {cF : F.arith.C} {c : Arith.xr.C}
    (hF : symLMScore encode (s : Int) sym mF = .ok (cF, mF')) (hR : symLMScore encode (s : Int) sym m = .ok (c, m')) :
    CostTwin φ (scoreError ε δ T K V N) cF c := by
  obtain ⟨dF, d, p, n, x1, x2, x3, x4, x5, x6⟩ := h.data hδ0 hδ1 ha hK0 hK hT hs
  obtain ⟨ordF, uF, iF⟩ := h.rounded
  obtain ⟨ord, u, i⟩ := h.plain
  have hs' : s < m.core.fst.states.length := by rw [h.twin.core.fst.length]; exact hs
  obtain ⟨wF, f1, f2, f3⟩ := symLMScore_query (g := mF.sig) iF.laws iF.wf iF.labels encode sym hs x1
  obtain ⟨w, g1, g2, g3⟩ := symLMScore_query (g := m.sig) i.laws i.wf i.labels encode sym hs' x3
  obtain ⟨_, k1, _⟩ := f1 mF rfl iF.cache
  obtain ⟨_, l1, _⟩ := g1 m rfl i.cache
  rw [hF] at k1; rw [hR] at l1
  simp only [Except.ok.injEq, Prod.mk.injEq] at k1 l1
  rw [k1.1, l1.1]
  have hsym : m.sig.symbols = mF.sig.symbols := h.twin.symbols
  rw [hsym] at g2 g3
  by_cases hi : (if sym = 0 then (0 : Int) else mF.sig.symbols.findLabel (encode sym)) < 0
  · rw [f3 hi, g3 hi]
    exact ⟨0, le_refl _, costOf_zero.symm, .inr (.inl ⟨rfl, rfl⟩)⟩
  · obtain ⟨y, hy⟩ := Int.eq_ofNat_of_zero_le (Int.not_lt.mp hi)
    have h1 := f2 y hy
    have h2 := g2 y hy
    have hyV : y < V + 1 := by rw [← x2.2.2]; exact lt_of_getElem?_eq_some h1
    obtain ⟨w', hw, hn⟩ := x6.costs.near y hyV
    rw [h1] at hw
    simp only [Option.some.injEq] at hw
    rw [x5.costs, List.getElem?_map, List.getElem?_range hyV] at h2
    simp only [Option.map_some, Option.some.injEq] at h2
    subst hw; subst h2
    exact ⟨p y, (x5.pos y (by omega)).le, rfl, hn⟩

/-- One call. -/
theorem step_near (hδ0 : 0 ≤ δ) (hδ1 : δ < 1) (ha : 0 < alpha) (encode : Int → Str) (h : Tandem F hε hb hb1 alpha V N mF m) {op : Op}
    (hv : op.Valid mF) {aF : Answer F.arith} (hF : step encode op mF = .ok (aF, mF')) :
    ∃ (a : Answer Arith.xr) (m' : Model Arith.xr), op.Valid m ∧ step encode op m = .ok (a, m') ∧ Tandem F hε hb hb1 alpha V N mF' m' ∧
      ∀ T : ℝ, Within T V m'.core.fst → Within T V m.core.fst ∧ ∀ K : ℝ, 0 ≤ K → beta * exp ((T + 1) * ε) * (K + 1) ≤ K →
        AnswerNear F (scoreError ε δ T K V N) (scoreError ε δ T K V N + slack δ) ((T + V + 1) * ε + slack δ) aF a := by
  have hv' : op.Valid m := hv.twin h.twin
  obtain ⟨ordF, uF, iF⟩ := h.rounded
  obtain ⟨ord, u, i⟩ := h.plain
  obtain ⟨a, m', ord', l, hR, _⟩ := step_inv i encode hv'
  have htw := step_twin (R := Ppm.twin F hε hb hb1) encode op mF m h.twin
  rw [hF, hR] at htw
  cases htw with
  | ok hat htw =>
  obtain ⟨h', hin⟩ := h.after htw
    (fun {ord u} i => by
      obtain ⟨a1, m1, ord1, l1, e1, e2, e3, e4, _⟩ := step_inv i encode hv
      rw [hF] at e1
      simp only [Except.ok.injEq, Prod.mk.injEq] at e1
      obtain ⟨_, rfl⟩ := e1
      exact ⟨ord1, l1, e3, e2.cache, e4⟩)
    (fun {ord u} i => by
      obtain ⟨a1, m1, ord1, l1, e1, e2, e3, e4, _⟩ := step_inv i encode hv'
      rw [hR] at e1
      simp only [Except.ok.injEq, Prod.mk.injEq] at e1
      obtain ⟨_, rfl⟩ := e1
      exact ⟨ord1, l1, e3, e2.cache, e4⟩)
  refine ⟨a, m', hv', hR, h', fun T hT => ⟨hin hT, fun K hK0 hK => ?_⟩⟩
  have hT' : Within T V m.core.fst := hin hT
  cases op with
  | next s sym =>
    cases hat with
    | state t => exact .state t
    | _ => obtain ⟨_, _, hb'⟩ := wrap_ok hF; cases hb'
  | update s ys count =>
    cases hat with
    | ok b => exact .ok b
    | _ => obtain ⟨_, _, hb'⟩ := wrap_ok hF; cases hb'
  | scores s =>
    obtain ⟨rF, e1, rfl⟩ := wrap_ok hF
    obtain ⟨r, e2, rfl⟩ := wrap_ok hR
    exact scores_near hδ0 hδ1 ha hK0 hK h hT' hv e1 e2
  | score s sym =>
    obtain ⟨cF, e1, rfl⟩ := wrap_ok hF
    obtain ⟨c, e2, rfl⟩ := wrap_ok hR
    exact .cost (score_near hδ0 hδ1 ha hK0 hK h hT' hv e1 e2)
  | logProbs ys =>
    obtain ⟨rF, e1, rfl⟩ := wrap_ok hF
    obtain ⟨r, e2, rfl⟩ := wrap_ok hR
    unfold getNegLogProbs at e1 e2
    rw [h.twin.core.fst.start] at e2
    have := logProbs_near hδ0 hδ1 ha hK0 hK ys h (iF.wf.start_lt) e1 e2 hT
    cases this with
    | none => exact .none
    | some hp => exact .costs hp

/-- Any history of calls. -/
theorem run_near (hδ0 : 0 ≤ δ) (hδ1 : δ < 1) (ha : 0 < alpha) {encode : Int → Str} {tr : List (Op × Answer F.arith)} (hr : Run encode mF tr mF') :
    ∀ {m : Model Arith.xr}, Tandem F hε hb hb1 alpha V N mF m →
    ∃ (tr' : List (Op × Answer Arith.xr)) (m' : Model Arith.xr), Run encode m tr' m' ∧ tr'.map Prod.fst = tr.map Prod.fst ∧ Tandem F hε hb hb1 alpha V N mF' m' ∧
      ∀ T : ℝ, Within T V m'.core.fst → Within T V m.core.fst ∧ ∀ K : ℝ, 0 ≤ K → beta * exp ((T + 1) * ε) * (K + 1) ≤ K →
        Pointwise (fun x y => AnswerNear F (scoreError ε δ T K V N) (scoreError ε δ T K V N + slack δ)
          ((T + V + 1) * ε + slack δ) x.2 y.2) tr tr' := by
  induction hr with
  | nil => intro m h; exact ⟨[], m, .nil, rfl, h, fun T hT => ⟨hT, fun _ _ _ => .nil⟩⟩
  | cons hv hs _ ih =>
    intro m h
    obtain ⟨a, m1, h1, h2, h3, h4⟩ := step_near hδ0 hδ1 ha encode h hv hs
    obtain ⟨tr', m', k1, k0, k2, k3⟩ := ih h3
    refine ⟨_ :: tr', m', .cons h1 h2 k1, by rw [List.map_cons, List.map_cons, k0], k2, fun T hT => ?_⟩
    obtain ⟨j1, j2⟩ := k3 T hT
    obtain ⟨j3, j4⟩ := h4 T j1
    exact ⟨j3, fun K hK0 hK => .cons (j4 K hK0 hK) (j2 K hK0 hK)⟩

end
end Mozolm.Ppm
