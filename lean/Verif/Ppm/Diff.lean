import Verif.RoundingLemmas
import Verif.Ppm.NumSpec
import Verif.Basic
import Mathlib.Algebra.BigOperators.Field
import Mathlib.Algebra.Order.BigOperators.Group.Finset
import Mathlib.Tactic.FieldSimp

/-! # Errors of differences of costs, and of renormalised costs -/

namespace Mozolm
open XR Real
open scoped BigOperators

variable {φ : Prop} {ε δ e f p q : ℝ} {a b x y : XR}

theorem log_one_sub {r t K : ℝ} (hr : 0 < r) (h : r * exp |t| * (K + 1) ≤ K) (hK : 0 ≤ K) :
    r < 1 ∧ r * exp t < 1 ∧ |log (1 - r * exp t) - log (1 - r)| ≤ |t| * K := by
  have hK1 : 0 < K + 1 := by linarith
  have hbig : r * exp |t| ≤ K / (K + 1) := by rw [le_div_iff₀ hK1]; exact h
  have hlt : K / (K + 1) < 1 := by rw [div_lt_one hK1]; linarith
  have ht : exp t ≤ exp |t| := Real.exp_le_exp.2 (le_abs_self t)
  have h1 : (1 : ℝ) ≤ exp |t| := Real.one_le_exp (abs_nonneg t)
  have hr1 : r ≤ r * exp |t| := by nlinarith
  have hrt : r * exp t ≤ r * exp |t| := mul_le_mul_of_nonneg_left ht hr.le
  have hv : 0 < 1 - r := by linarith
  have hu : 0 < 1 - r * exp t := by linarith
  refine ⟨by linarith, by linarith, ?_⟩
  -- for `z` at most `r * exp |t|`, the odds of `z` are at most `K`
  have odds : ∀ z, z ≤ r * exp |t| → z ≤ K * (1 - z) := by
    intro z hz
    have : z ≤ K / (K + 1) := hz.trans hbig
    rw [le_div_iff₀ hK1] at this
    linarith
  have hrp : 0 < r * exp t := by positivity
  rw [abs_le]
  constructor
  · have := Real.log_le_sub_one_of_pos (div_pos hv hu)
    rw [Real.log_div hv.ne' hu.ne'] at this
    have h2 : (1 - r) / (1 - r * exp t) - 1 ≤ |t| * K := by
      rw [div_sub_one hu.ne', div_le_iff₀ hu]
      have h3 : r * exp t - r ≤ |t| * (r * exp t) := by
        have := Real.add_one_le_exp (-t)
        have h4 : exp t * exp (-t) = 1 := by rw [← Real.exp_add]; simp
        have h5 : exp t - 1 ≤ t * exp t := by nlinarith [exp_pos t]
        have h6 : t * exp t ≤ |t| * exp t := mul_le_mul_of_nonneg_right (le_abs_self t) (exp_pos t).le
        nlinarith
      have h7 := mul_le_mul_of_nonneg_left (odds _ hrt) (abs_nonneg t)
      nlinarith
    linarith
  · have := Real.log_le_sub_one_of_pos (div_pos hu hv)
    rw [Real.log_div hu.ne' hv.ne'] at this
    have h2 : (1 - r * exp t) / (1 - r) - 1 ≤ |t| * K := by
      rw [div_sub_one hv.ne', div_le_iff₀ hv]
      have h3 : r - r * exp t ≤ |t| * r := by
        have := Real.add_one_le_exp t
        have h6 : -t ≤ |t| := neg_le_abs t
        nlinarith
      have h7 := mul_le_mul_of_nonneg_left (odds _ hr1) (abs_nonneg t)
      nlinarith
    linarith

theorem log_sub_near {p q p' q' K : ℝ} (hp : 0 < p) (hq : 0 < q) (hp' : 0 < p') (hq' : 0 < q')
    (h1 : |log p' - log p| ≤ e) (h2 : |log q' - log q| ≤ f) (hK : 0 ≤ K) (h : q * exp (e + f) * (K + 1) ≤ K * p) :
    q < p ∧ q' < p' ∧ |log (p' - q') - log (p - q)| ≤ e + (e + f) * K := by
  set t := (log q' - log p') - (log q - log p) with ht
  have htabs : |t| ≤ e + f := by
    have : t = (log q' - log q) + -(log p' - log p) := by rw [ht]; ring
    rw [this]
    refine (abs_add_le _ _).trans ?_
    rw [abs_neg]; linarith
  have hr : 0 < q / p := by positivity
  have hrt : q / p * exp t = q' / p' := by
    rw [ht, Real.exp_sub, Real.exp_sub, Real.exp_sub, Real.exp_log hq', Real.exp_log hp', Real.exp_log hq, Real.exp_log hp]
    field_simp
  have hcond : q / p * exp |t| * (K + 1) ≤ K := by
    rw [div_mul_eq_mul_div, div_mul_eq_mul_div, div_le_iff₀ hp]
    refine le_trans ?_ h
    have := Real.exp_le_exp.2 htabs
    have : q * exp |t| ≤ q * exp (e + f) := mul_le_mul_of_nonneg_left this hq.le
    exact mul_le_mul_of_nonneg_right this (by linarith)
  obtain ⟨k1, k2, k3⟩ := log_one_sub hr hcond hK
  rw [hrt] at k2 k3
  rw [div_lt_one hp] at k1
  rw [div_lt_one hp'] at k2
  refine ⟨k1, k2, ?_⟩
  have e1 : log (p' - q') = log p' + log (1 - q' / p') := by
    rw [← Real.log_mul hp'.ne' (by rw [sub_ne_zero]; exact (ne_of_gt (by rw [div_lt_one hp']; exact k2)))]
    congr 1; field_simp
  have e2 : log (p - q) = log p + log (1 - q / p) := by
    rw [← Real.log_mul hp.ne' (by rw [sub_ne_zero]; exact (ne_of_gt (by rw [div_lt_one hp]; exact k1)))]
    congr 1; field_simp
  rw [e1, e2]
  have : log p' + log (1 - q' / p') - (log p + log (1 - q / p)) = (log p' - log p) + (log (1 - q' / p') - log (1 - q / p)) := by ring
  rw [this]
  refine (abs_add_le _ _).trans (add_le_add h1 (k3.trans ?_))
  exact mul_le_mul_of_nonneg_right htabs hK

/-- the difference of costs, where what is subtracted is not almost everything -/
theorem CostNear.nld (F : Rounding φ ε δ) {K : ℝ} (ha : CostNear φ e a p) (hb : CostNear φ f b q) (hp : 0 < p) (hq : 0 < q)
    (hK : 0 ≤ K) (h : q * exp (e + f) * (K + 1) ≤ K * p) : CostNear φ (e + (e + f) * K + ε) (F.nld a b) (p - q) := by
  refine .of (F.nld_near a b) ?_
  rcases hb with ⟨hfl, rfl⟩ | ⟨h0, _⟩ | ⟨_, v, rfl, hv⟩
  · exact .inl ⟨hfl, by cases a <;> rfl⟩
  · exact absurd h0 hq.ne'
  rcases ha with ⟨hfl, rfl⟩ | ⟨h0, _⟩ | ⟨_, u, rfl, hu⟩
  · exact .inl ⟨hfl, rfl⟩
  · exact absurd h0 hp.ne'
  have h1 : |log (exp (-u)) - log p| ≤ e := by rw [Real.log_exp, ← abs_neg]; convert hu using 2; ring
  have h2 : |log (exp (-v)) - log q| ≤ f := by rw [Real.log_exp, ← abs_neg]; convert hv using 2; ring
  obtain ⟨k1, k2, k3⟩ := log_sub_near hp hq (exp_pos _) (exp_pos _) h1 h2 hK h
  refine .inr (.inr ⟨by linarith, - log (exp (-u) - exp (-v)), ?_, ?_⟩)
  · show negLog (.fin _) = _
    rw [negLog, if_pos (by linarith)]
  · rw [← abs_neg]; convert k3 using 2; ring

theorem CostNear.fin_of (h : CostNear φ e a p) (hp : 0 < p) (hn : a ≠ .nan) : ∃ u, a = .fin u ∧ |u + log p| ≤ e := by
  rcases h with h | h | ⟨_, u, h1, h2⟩
  · exact absurd h.2 hn
  · exact absurd h.1 hp.ne'
  · exact ⟨u, h1, h2⟩

theorem CostNear.fin {u : ℝ} (hp : 0 < p) (h : CostNear φ e (.fin u) p) : |u + log p| ≤ e := by
  obtain ⟨v, hv, h⟩ := h.fin_of hp (by simp)
  cases hv; exact h

theorem nls_nan_left (F : Rounding φ ε δ) (b : XR) : F.nls .nan b = .nan := by
  have := F.nls_near .nan b
  rw [negLogSum_nan] at this
  exact near_nan this

theorem nls_nan_right (F : Rounding φ ε δ) (a : XR) : F.nls a .nan = .nan := by
  have := F.nls_near a .nan
  have e : negLogSum a .nan = .nan := by cases a <;> rfl
  rw [e] at this
  exact near_nan this

theorem over_nan_right (F : Rounding φ ε δ) (a : XR) : F.over a .nan = .nan := by
  have := F.over_near a .nan
  have e : XR.sub a .nan = .nan := by cases a <;> rfl
  rw [e] at this
  exact near_nan this

theorem times_nan_left (F : Rounding φ ε δ) (a : XR) : F.times .nan a = .nan := by
  have := F.times_near .nan a
  have e : XR.add .nan a = .nan := by cases a <;> rfl
  rw [e] at this
  exact near_nan this

theorem times_nan_right (F : Rounding φ ε δ) (a : XR) : F.times a .nan = .nan := by
  have := F.times_near a .nan
  have e : XR.add a .nan = .nan := by cases a <;> rfl
  rw [e] at this
  exact near_nan this

theorem sumFrom_nan (F : Rounding φ ε δ) : ∀ (l : List XR) (a : XR), a = .nan ∨ XR.nan ∈ l → Scores.negLogSumFrom F.arith a l = .nan := by
  intro l
  induction l with
  | nil => intro a h; simpa [Scores.negLogSumFrom] using h
  | cons b l ih =>
    intro a h
    simp only [Scores.negLogSumFrom]
    refine ih _ ?_
    rcases h with rfl | h
    · exact .inl (nls_nan_left F b)
    · rcases List.mem_cons.1 h with rfl | h
      · exact .inl (nls_nan_right F a)
      · exact .inr h

/-- a list of numbers whose logarithms are close has sums whose logarithms are close -/
theorem log_sum_near (n : ℕ) {u v : ℕ → ℝ} (hu : ∀ y < n + 1, 0 < u y) (hv : ∀ y < n + 1, 0 < v y)
    (h : ∀ y < n + 1, |log (u y) - log (v y)| ≤ e) :
    |log (∑ y ∈ Finset.range (n + 1), u y) - log (∑ y ∈ Finset.range (n + 1), v y)| ≤ e := by
  have su : 0 < ∑ y ∈ Finset.range (n + 1), u y := Finset.sum_pos (fun y hy => hu y (Finset.mem_range.1 hy)) ⟨0, by simp⟩
  have sv : 0 < ∑ y ∈ Finset.range (n + 1), v y := Finset.sum_pos (fun y hy => hv y (Finset.mem_range.1 hy)) ⟨0, by simp⟩
  rw [abs_log_le su sv, Finset.sum_mul, Finset.sum_mul]
  have h' := fun y hy => (abs_log_le (hu y hy) (hv y hy)).1 (h y hy)
  exact ⟨Finset.sum_le_sum fun y hy => (h' y (Finset.mem_range.1 hy)).1, Finset.sum_le_sum fun y hy => (h' y (Finset.mem_range.1 hy)).2⟩

namespace Ppm

theorem value_near {u : ℝ} : CostNear φ 0 (.fin u) (value (.fin u)) := .self

theorem value_near' {c : XR} (hc : ∃ u, c = .fin u) : CostNear φ 0 c (value c) := by
  obtain ⟨u, rfl⟩ := hc; exact .self

theorem value_pos {c : XR} (hc : ∃ u, c = .fin u) : 0 < value c := by
  obtain ⟨u, rfl⟩ := hc; exact exp_pos _

theorem CostNear.value {c : XR} (h : CostNear φ e c p) (hp : 0 < p) (hc : c ≠ .nan) : |log (value c) - log p| ≤ e := by
  obtain ⟨u, rfl, hu⟩ := h.fin_of hp hc
  show |log (exp (-u)) - log p| ≤ e
  rw [Real.log_exp, ← abs_neg]; convert hu using 2; ring

/-- The costs `cs` of the symbols `0..V` are those of `p` within `e`, and those of numbers that sum to one within `η`; or
flags were raised (only if `φ`). -/
structure CostsNear (φ : Prop) (e η : ℝ) (V : Nat) (cs : List XR) (p : ℕ → ℝ) : Prop where
  length : cs.length = V + 1
  near : ∀ y < V + 1, ∃ c, cs[y]? = some c ∧ CostNear φ e c (p y)
  sum : XR.nan ∉ cs → |log (∑ y ∈ Finset.range (V + 1), value (cs.getD y .nan))| ≤ η

theorem sum_getD (v : XR → ℝ) : ∀ l : List XR, ∑ y ∈ Finset.range l.length, v (l.getD y .nan) = (l.map v).sum := by
  intro l
  induction l with
  | nil => simp
  | cons c l ih =>
    rw [List.length_cons, Finset.sum_range_succ', List.map_cons, List.sum_cons, ← ih, add_comm]
    simp

theorem getD_of {l : List XR} {y : Nat} {c : XR} (h : l[y]? = some c) : l.getD y .nan = c := by
  rw [List.getD_eq_getElem?_getD, h]; rfl

theorem softmax_near (F : Rounding φ ε δ) (hε : 0 ≤ ε) {V : Nat} {raw ws : List XR} {R Rs Q : ℝ} {q : ℕ → ℝ} (hl : raw.length = V + 1)
    (hr : ∀ y < V + 1, ∃ c, raw[y]? = some c ∧ CostNear φ R c (q y)) (hq : ∀ y < V + 1, 0 < q y) (hQ : 0 < Q)
    (hs : XR.nan ∉ raw → |log (∑ y ∈ Finset.range (V + 1), value (raw.getD y .nan)) - log Q| ≤ Rs)
    (h : Scores.softmaxRenormalize F.arith raw = .ok ws) :
    CostsNear φ (R + Rs + (V + 1) * ε) ((V + 1) * ε) V ws (fun y => q y / Q) := by
  match raw, h with
  | c :: cs, h =>
  simp only [Scores.softmaxRenormalize, Except.ok.injEq] at h
  generalize htot : Scores.negLogSumFrom F.arith c cs = tot at h
  have hwl : ws.length = V + 1 := by rw [← h, List.length_map, hl]
  have hget : ∀ y < V + 1, ∃ x, (c :: cs)[y]? = some x ∧ ws[y]? = some (F.over x tot) := by
    intro y hy
    obtain ⟨x, hx⟩ := exists_getElem?_of_lt (l := c :: cs) (i := y) (by rw [hl]; exact hy)
    refine ⟨x, hx, ?_⟩
    rw [← h, List.getElem?_map, hx]; rfl
  have hnan : φ → tot = .nan → CostsNear φ (R + Rs + (V + 1) * ε) ((V + 1) * ε) V ws (fun y => q y / Q) := by
    intro hφ ht
    refine ⟨hwl, fun y hy => ?_, fun hn => ?_⟩
    · obtain ⟨x, _, hx⟩ := hget y hy
      rw [ht, over_nan_right] at hx
      exact ⟨_, hx, .inl ⟨hφ, rfl⟩⟩
    · obtain ⟨x, _, hx⟩ := hget 0 (by omega)
      rw [ht, over_nan_right] at hx
      exact absurd (List.mem_of_getElem? hx) hn
  by_cases hn : XR.nan ∈ c :: cs
  · obtain ⟨i, hi⟩ := List.getElem?_of_mem hn
    have hlt : i < V + 1 := by rw [← hl]; exact lt_of_getElem?_eq_some hi
    obtain ⟨c', hc', hc2⟩ := hr i hlt
    rw [hi] at hc'
    injection hc' with hc'
    refine hnan (hc2.flag hc'.symm) ?_
    rw [← htot]
    refine sumFrom_nan F cs c ?_
    rcases List.mem_cons.1 hn with h | h
    · exact .inl h.symm
    · exact .inr h
  have hfin : ∀ x ∈ c :: cs, ∃ u, x = .fin u := by
    intro x hx
    obtain ⟨i, hi⟩ := List.getElem?_of_mem hx
    have hlt : i < V + 1 := by rw [← hl]; exact lt_of_getElem?_eq_some hi
    obtain ⟨c', hc', hc2⟩ := hr i hlt
    rw [hi] at hc'
    injection hc' with hc'
    subst hc'
    obtain ⟨u, hu, _⟩ := hc2.fin_of (hq i hlt) (fun e => hn (e ▸ hx))
    exact ⟨u, hu⟩
  set S := ∑ y ∈ Finset.range (V + 1), value ((c :: cs).getD y .nan) with hS
  have hSl : S = value c + (cs.map value).sum := by
    rw [hS, ← hl, sum_getD]; simp
  have hSpos : 0 < S := by
    refine Finset.sum_pos (fun y hy => ?_) ⟨0, by simp⟩
    obtain ⟨x, hx, _⟩ := hget y (Finset.mem_range.1 hy)
    rw [getD_of hx]
    exact value_pos (hfin x (List.mem_of_getElem? hx))
  have htn : CostNear φ (V * ε) tot S := by
    have := CostNear.total F hε (cs.map fun x => (x, value x)) (e := 0) (a := c) (p := value c) (value_near' (hfin c (by simp)))
      (fun x hx => by
        obtain ⟨z, hz, rfl⟩ := List.mem_map.1 hx
        exact value_near' (hfin z (by simp [hz])))
    rw [List.map_map, List.map_map] at this
    have e1 : (Prod.fst ∘ fun x : XR => (x, value x)) = id := rfl
    have e2 : (Prod.snd ∘ fun x : XR => (x, value x)) = value := rfl
    rw [e1, e2, List.map_id, htot, ← hSl, zero_add, List.length_map] at this
    have hcs : cs.length = V := by simpa using hl
    rw [hcs] at this
    exact this
  by_cases ht : tot = .nan
  · exact hnan (htn.flag ht) ht
  obtain ⟨t, rfl, htS⟩ := htn.fin_of hSpos ht
  have htQ : CostNear φ (Rs + V * ε) (.fin t) Q := by
    refine .inr (.inr ⟨hQ, t, rfl, ?_⟩)
    have h1 := hs hn
    have : t + log Q = (t + log S) + -(log S - log Q) := by ring
    rw [this]
    refine (abs_add_le _ _).trans ?_
    rw [abs_neg]; linarith
  refine ⟨hwl, fun y hy => ?_, fun hw => ?_⟩
  · obtain ⟨x, hx, hx2⟩ := hget y hy
    obtain ⟨x', hx', hx3⟩ := hr y hy
    rw [hx] at hx'
    injection hx' with hx'
    subst hx'
    exact ⟨_, hx2, (CostNear.over F hx3 htQ hQ).mono (by linarith)⟩
  · have h1 : |log (∑ y ∈ Finset.range (V + 1), value (ws.getD y .nan)) -
        log (∑ y ∈ Finset.range (V + 1), value ((c :: cs).getD y .nan) / S)| ≤ (V + 1) * ε := by
      refine log_sum_near V (fun y hy => ?_) (fun y hy => ?_) fun y hy => ?_
      all_goals
        obtain ⟨x, hx, hx2⟩ := hget y hy
        have hxf := hfin x (List.mem_of_getElem? hx)
        have hxp := value_pos hxf
        have hno := CostNear.over F (value_near' (φ := φ) hxf) htn hSpos
        have hne : F.over x (.fin t) ≠ .nan := fun e => hw (e ▸ List.mem_of_getElem? hx2)
      · rw [getD_of hx2]
        obtain ⟨u, hu, _⟩ := hno.fin_of (by positivity) hne
        exact value_pos ⟨u, hu⟩
      · rw [getD_of hx]; positivity
      · rw [getD_of hx2, getD_of hx]
        exact (CostNear.value hno (by positivity) hne).trans (by linarith)
    rw [← Finset.sum_div, ← hS, div_self hSpos.ne', Real.log_one, sub_zero] at h1
    exact h1

end Ppm
end Mozolm
