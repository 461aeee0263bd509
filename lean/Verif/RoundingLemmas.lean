import Verif.Rounding
import Verif.Scores.Model
import Mathlib.Tactic.Ring
import Mathlib.Tactic.Positivity
import Mathlib.Tactic.Linarith

/-! # Error propagation -/

namespace Mozolm
open XR Real

variable {φ : Prop} {ε δ e f p q : ℝ} {a b x y : XR}

theorem exp_log_le {u v e : ℝ} (hu : 0 < u) (hv : 0 < v) : log u - log v ≤ e ↔ u ≤ v * exp e := by
  rw [← Real.log_le_log_iff hu (by positivity), Real.log_mul hv.ne' (exp_pos e).ne', Real.log_exp]
  constructor <;> intro h <;> linarith

theorem abs_log_le {u v e : ℝ} (hu : 0 < u) (hv : 0 < v) : |log u - log v| ≤ e ↔ v * exp (-e) ≤ u ∧ u ≤ v * exp e := by
  rw [abs_le, exp_log_le hu hv]
  have : v * exp (-e) ≤ u ↔ -e ≤ log u - log v := by
    rw [← Real.log_le_log_iff (by positivity) hu, Real.log_mul hv.ne' (exp_pos _).ne', Real.log_exp]
    constructor <;> intro h <;> linarith
  rw [this]

theorem abs_log_add {u u' v v' e : ℝ} (hu : 0 < u) (hu' : 0 < u') (hv : 0 < v) (hv' : 0 < v')
    (h1 : |log u' - log u| ≤ e) (h2 : |log v' - log v| ≤ e) : |log (u' + v') - log (u + v)| ≤ e := by
  rw [abs_log_le hu' hu] at h1
  rw [abs_log_le hv' hv] at h2
  rw [abs_log_le (by positivity) (by positivity)]
  constructor <;> nlinarith

theorem CostNear.mono (h : CostNear φ e a p) (hf : e ≤ f) : CostNear φ f a p := by
  rcases h with h | h | ⟨h1, x, h2, h3⟩
  · exact .inl h
  · exact .inr (.inl h)
  · exact .inr (.inr ⟨h1, x, h2, h3.trans hf⟩)

theorem CostNear.nonneg (h : CostNear φ e a p) (hn : a ≠ .nan) : 0 ≤ p := by
  rcases h with h | h | h
  · exact absurd h.2 hn
  · exact h.1.ge
  · exact h.1.le

theorem CostNear.flag (h : CostNear φ e a p) (ha : a = .nan) : φ := by
  rcases h with h | ⟨_, h⟩ | ⟨_, x, h, _⟩
  · exact h.1
  · rw [ha] at h; cases h
  · rw [ha] at h; cases h

theorem ValueNear.flag (h : ValueNear φ e a p) (ha : a = .nan) : φ := by
  rcases h with h | ⟨x, h, _⟩
  · exact h.1
  · rw [ha] at h; cases h

/-- what is near a cost is a cost -/
theorem CostNear.of (h : NearC φ ε a b) (hb : CostNear φ e b p) : CostNear φ (e + ε) a p := by
  cases a with
  | nan => exact .inl ⟨Or.elim h id fun h => hb.flag h, rfl⟩
  | fin u =>
    rcases hb with ⟨_, rfl⟩ | ⟨_, rfl⟩ | ⟨h1, v, rfl, h2⟩
    · exact absurd h id
    · exact absurd h id
    · refine .inr (.inr ⟨h1, u, rfl, ?_⟩)
      have h' : |u - v| ≤ ε := h
      have : u + log p = (v + log p) + (u - v) := by ring
      rw [this]
      exact (abs_add_le _ _).trans (add_le_add h2 h')
  | pinf =>
    rcases hb with ⟨hfl, rfl⟩ | ⟨h1, rfl⟩ | ⟨h1, v, rfl, h2⟩
    · exact absurd h id
    · exact .inr (.inl ⟨h1, rfl⟩)
    · exact absurd h id
  | ninf =>
    rcases hb with ⟨hfl, rfl⟩ | ⟨h1, rfl⟩ | ⟨h1, v, rfl, h2⟩ <;> exact absurd h id

theorem near_nan (h : NearC φ ε a .nan) : a = .nan := by
  cases a <;> first | rfl | exact absurd h id

theorem nearD_nan (h : NearD φ δ a .nan) : a = .nan := by
  cases a <;> first | rfl | exact absurd h id

theorem negLogSum_nan : ∀ b, negLogSum .nan b = .nan := by intro b; cases b <;> rfl

theorem sum_exact (ha : CostNear φ e a p) (hb : CostNear φ e b q) (hna : a ≠ .nan) (hnb : b ≠ .nan) :
    CostNear φ e (negLogSum a b) (p + q) := by
  rcases ha with ha | ⟨hp, rfl⟩ | ⟨hp, u, rfl, hu⟩
  · exact absurd ha.2 hna
  · rw [hp, zero_add]
    exact hb
  · rcases hb with hb | ⟨hq, rfl⟩ | ⟨hq, v, rfl, hv⟩
    · exact absurd hb.2 hnb
    · rw [hq, add_zero]
      exact .inr (.inr ⟨hp, u, rfl, hu⟩)
    · refine .inr (.inr ⟨by positivity, _, rfl, ?_⟩)
      have h1 : |log (exp (-u)) - log p| ≤ e := by
        rw [Real.log_exp, ← abs_neg]; convert hu using 2; ring
      have h2 : |log (exp (-v)) - log q| ≤ e := by
        rw [Real.log_exp, ← abs_neg]; convert hv using 2; ring
      have := abs_log_add hp (exp_pos _) hq (exp_pos _) h1 h2
      rw [← abs_neg]
      convert this using 2
      ring

theorem CostNear.nls (F : Rounding φ ε δ) (ha : CostNear φ e a p) (hb : CostNear φ e b q) :
    CostNear φ (e + ε) (F.nls a b) (p + q) := by
  have h := F.nls_near a b
  by_cases hna : a = .nan
  · subst hna
    rw [negLogSum_nan b] at h
    exact .inl ⟨ha.flag rfl, near_nan h⟩
  by_cases hnb : b = .nan
  · subst hnb
    have : negLogSum a .nan = .nan := by cases a <;> rfl
    rw [this] at h
    exact .inl ⟨hb.flag rfl, near_nan h⟩
  exact .of h (sum_exact ha hb hna hnb)

theorem CostNear.times (F : Rounding φ ε δ) (ha : CostNear φ e a p) (hb : CostNear φ f b q) :
    CostNear φ (e + f + ε) (F.times a b) (p * q) := by
  refine .of (F.times_near a b) ?_
  rcases ha with ⟨hfl, rfl⟩ | ⟨hp, rfl⟩ | ⟨hp, u, rfl, hu⟩
  · exact .inl ⟨hfl, rfl⟩
  · rcases hb with ⟨hfl, rfl⟩ | ⟨hq, rfl⟩ | ⟨hq, v, rfl, hv⟩
    · exact .inl ⟨hfl, rfl⟩
    · exact .inr (.inl ⟨by rw [hp, zero_mul], rfl⟩)
    · exact .inr (.inl ⟨by rw [hp, zero_mul], rfl⟩)
  · rcases hb with ⟨hfl, rfl⟩ | ⟨hq, rfl⟩ | ⟨hq, v, rfl, hv⟩
    · exact .inl ⟨hfl, rfl⟩
    · exact .inr (.inl ⟨by rw [hq, mul_zero], rfl⟩)
    · refine .inr (.inr ⟨by positivity, _, rfl, ?_⟩)
      rw [Real.log_mul hp.ne' hq.ne']
      have : u + v + (log p + log q) = (u + log p) + (v + log q) := by ring
      rw [this]
      exact (abs_add_le _ _).trans (add_le_add hu hv)

theorem CostNear.over (F : Rounding φ ε δ) (ha : CostNear φ e a p) (hb : CostNear φ f b q) (hq : 0 < q) :
    CostNear φ (e + f + ε) (F.over a b) (p / q) := by
  refine .of (F.over_near a b) ?_
  rcases hb with ⟨hfl, rfl⟩ | ⟨hq', rfl⟩ | ⟨_, v, rfl, hv⟩
  · exact .inl ⟨hfl, by cases a <;> rfl⟩
  · exact absurd hq' hq.ne'
  · rcases ha with ⟨hfl, rfl⟩ | ⟨hp, rfl⟩ | ⟨hp, u, rfl, hu⟩
    · exact .inl ⟨hfl, rfl⟩
    · exact .inr (.inl ⟨by rw [hp, zero_div], rfl⟩)
    · refine .inr (.inr ⟨by positivity, _, rfl, ?_⟩)
      rw [Real.log_div hp.ne' hq.ne']
      have : u + -v + (log p - log q) = (u + log p) + -(v + log q) := by ring
      rw [this]
      refine (abs_add_le _ _).trans (add_le_add hu ?_)
      rw [abs_neg]
      exact hv

/-! ## Plain numbers -/

theorem slack_nonneg (h0 : 0 ≤ δ) (h1 : δ < 1) : 0 ≤ slack δ := by
  unfold slack
  have := Real.log_nonpos (by linarith : 0 ≤ 1 - δ) (by linarith)
  linarith

theorem ValueNear.zero (h : ValueNear φ e x 0) : (φ ∧ x = .nan) ∨ x = .fin 0 := by
  rcases h with h | ⟨y, h1, h2, h3⟩
  · exact .inl h
  · right
    rw [h1]
    congr 1
    linarith

theorem ValueNear.pos (h : ValueNear φ e x p) (hp : 0 < p) : (φ ∧ x = .nan) ∨ ∃ y, x = .fin y ∧ 0 < y ∧ |log y - log p| ≤ e := by
  rcases h with h | ⟨y, h1, h2, h3⟩
  · exact .inl h
  · have hy : 0 < y := lt_of_lt_of_le (by positivity) h2
    exact .inr ⟨y, h1, hy, (abs_log_le hy hp).2 ⟨h2, h3⟩⟩

theorem ValueNear.mk {y : ℝ} (hy : 0 < y) (hp : 0 < p) (h : |log y - log p| ≤ e) : ValueNear φ e (.fin y) p :=
  .inr ⟨y, rfl, (abs_log_le hy hp).1 h⟩

theorem ValueNear.mk0 : ValueNear φ e (.fin 0) 0 := .inr ⟨0, rfl, by simp, by simp⟩

theorem log_near {u v : ℝ} (h1 : δ < 1) (hv : 0 < v) (h : |u - v| ≤ δ * v) : 0 < u ∧ |log u - log v| ≤ slack δ := by
  rw [abs_le] at h
  have hd : 0 ≤ δ := by
    have : 0 ≤ δ * v := by linarith
    by_contra hc
    nlinarith [not_le.1 hc]
  have hu : 0 < u := by nlinarith
  refine ⟨hu, (abs_log_le hu hv).2 ⟨?_, ?_⟩⟩
  · unfold slack
    rw [neg_neg, Real.exp_log (by linarith)]
    nlinarith
  · unfold slack
    rw [Real.exp_neg, Real.exp_log (by linarith)]
    have h2 : u ≤ (1 + δ) * v := by linarith
    have h3 : (1 + δ) ≤ (1 - δ)⁻¹ := by
      rw [le_inv_comm₀ (by linarith) (by linarith), inv_eq_one_div, le_div_iff₀ (by linarith)]
      nlinarith
    calc u ≤ (1 + δ) * v := h2
      _ ≤ (1 - δ)⁻¹ * v := mul_le_mul_of_nonneg_right h3 hv.le
      _ = v * (1 - δ)⁻¹ := mul_comm _ _

theorem ValueNear.of (h1 : δ < 1) (hp : 0 ≤ p) (h : NearD φ δ x y) (hy : ValueNear φ e y p) : ValueNear φ (e + slack δ) x p := by
  rcases hp.eq_or_lt with rfl | hp
  · rcases hy.zero with ⟨hfl, rfl⟩ | rfl
    · exact .inl ⟨hfl, nearD_nan h⟩
    · cases x with
      | nan => exact .inl ⟨Or.elim h id fun h => hy.flag h, rfl⟩
      | fin u =>
        have h' : |u - 0| ≤ δ * |(0 : ℝ)| := h
        rw [abs_zero, mul_zero, sub_zero] at h'
        rw [abs_nonpos_iff.1 h']
        exact .mk0
      | pinf => exact absurd h id
      | ninf => exact absurd h id
  · rcases hy.pos hp with ⟨hfl, rfl⟩ | ⟨v, rfl, hv, hv2⟩
    · exact .inl ⟨hfl, nearD_nan h⟩
    · cases x with
      | nan => exact .inl ⟨Or.elim h id fun h => hy.flag h, rfl⟩
      | fin u =>
        have h' : |u - v| ≤ δ * |v| := h
        rw [abs_of_pos hv] at h'
        obtain ⟨hu, hu2⟩ := log_near h1 hv h'
        refine .mk hu hp ?_
        have : log u - log p = (log v - log p) + (log u - log v) := by ring
        rw [this]
        exact (abs_add_le _ _).trans (add_le_add hv2 hu2)
      | pinf => exact absurd h id
      | ninf => exact absurd h id

theorem ValueNear.mono (h : ValueNear φ e x p) (hp : 0 ≤ p) (hf : e ≤ f) : ValueNear φ f x p := by
  rcases h with h | ⟨y, h1, h2, h3⟩
  · exact .inl h
  · refine .inr ⟨y, h1, le_trans ?_ h2, h3.trans ?_⟩
    · exact mul_le_mul_of_nonneg_left (Real.exp_le_exp.2 (by linarith)) hp
    · exact mul_le_mul_of_nonneg_left (Real.exp_le_exp.2 hf) hp

theorem ValueNear.ofInt (F : Rounding φ ε δ) (h1 : δ < 1) {n : Int} (hn : 0 ≤ n) : ValueNear φ (slack δ) (F.ofInt n) n := by
  have := ValueNear.of (e := 0) (p := (n : ℝ)) h1 (by exact_mod_cast hn) (F.ofInt_near n) (.inr ⟨n, rfl, by simp, by simp⟩)
  rwa [zero_add] at this

theorem ValueNear.div (F : Rounding φ ε δ) (h1 : δ < 1) (hp : 0 ≤ p) (hq : 0 < q) (hx : ValueNear φ e x p) (hy : ValueNear φ f y q) :
    ValueNear φ (e + f + slack δ) (F.ddiv x y) (p / q) := by
  refine .of h1 (by positivity) (F.ddiv_near x y) ?_
  rcases hy.pos hq with ⟨hfl, rfl⟩ | ⟨v, rfl, hv, hv2⟩
  · exact .inl ⟨hfl, by cases x <;> rfl⟩
  · rcases hp.eq_or_lt with rfl | hp
    · rcases hx.zero with ⟨hfl, rfl⟩ | rfl
      · exact .inl ⟨hfl, rfl⟩
      · simp only [XR.div, if_neg hv.ne', zero_div]
        exact .mk0
    · rcases hx.pos hp with ⟨hfl, rfl⟩ | ⟨u, rfl, hu, hu2⟩
      · exact .inl ⟨hfl, rfl⟩
      · simp only [XR.div, if_neg hv.ne']
        refine .mk (by positivity) (by positivity) ?_
        rw [Real.log_div hu.ne' hv.ne', Real.log_div hp.ne' hq.ne']
        have : log u - log v - (log p - log q) = (log u - log p) + -(log v - log q) := by ring
        rw [this]
        refine (abs_add_le _ _).trans (add_le_add hu2 ?_)
        rw [abs_neg]; exact hv2

theorem ValueNear.cost (F : Rounding φ ε δ) (hp : 0 ≤ p) (hx : ValueNear φ e x p) : CostNear φ (e + ε) (F.cost x) p := by
  refine .of (F.cost_near x) ?_
  rcases hp.eq_or_lt with rfl | hp
  · rcases hx.zero with ⟨hfl, rfl⟩ | rfl
    · exact .inl ⟨hfl, rfl⟩
    · exact .inr (.inl ⟨rfl, by simp [negLog]⟩)
  · rcases hx.pos hp with ⟨hfl, rfl⟩ | ⟨u, rfl, hu, hu2⟩
    · exact .inl ⟨hfl, rfl⟩
    · refine .inr (.inr ⟨hp, -log u, by simp [negLog, hu], ?_⟩)
      rw [← abs_neg]; convert hu2 using 2; ring

theorem CostNear.prob (F : Rounding φ ε δ) (h1 : δ < 1) (ha : CostNear φ e a p) : ValueNear φ (e + slack δ) (F.prob a) p := by
  rcases ha with ⟨hfl, rfl⟩ | ⟨rfl, rfl⟩ | ⟨hp, u, rfl, hu⟩
  · exact .inl ⟨hfl, nearD_nan (F.prob_near .nan)⟩
  · exact .of h1 le_rfl (F.prob_near _) .mk0
  · refine .of h1 hp.le (F.prob_near _) (.mk (exp_pos _) hp ?_)
    rw [Real.log_exp, ← abs_neg]; convert hu using 2; ring

/-- a number with a cost of its own -/
theorem CostNear.self {u : ℝ} : CostNear φ 0 (.fin u) (exp (-u)) :=
  .inr (.inr ⟨exp_pos _, u, rfl, by rw [Real.log_exp]; simp⟩)

/-- the left fold of `NegLogSum` -/
theorem CostNear.total (F : Rounding φ ε δ) (hε : 0 ≤ ε) : ∀ (l : List (XR × ℝ)) {e : ℝ} {a : XR} {p : ℝ}, CostNear φ e a p →
    (∀ x ∈ l, CostNear φ e x.1 x.2) →
    CostNear φ (e + l.length * ε) (Scores.negLogSumFrom F.arith a (l.map Prod.fst)) (p + (l.map Prod.snd).sum) := by
  intro l
  induction l with
  | nil => intro e a p ha _; simpa [Scores.negLogSumFrom] using ha
  | cons x l ih =>
    intro e a p ha hl
    have h1 := CostNear.nls F ha (hl x (by simp))
    have := ih h1 (fun y hy => (hl y (by simp [hy])).mono (by linarith))
    simp only [List.map_cons, Scores.negLogSumFrom, List.sum_cons, List.length_cons, Nat.cast_succ]
    refine (show CostNear φ _ _ _ from ?_)
    convert this using 1 <;> ring

end Mozolm
