import Verif.Props.PpmSaturation
import Mathlib.Analysis.Complex.ExponentialBounds

/-!
# C113: counts stop growing, whatever the rounding
-/

namespace Mozolm.Ppm

/-- rounding of finite costs -/
noncomputable def rounded (rnd : ℝ → ℝ) : XR → XR
  | .fin x => .fin (rnd x)
  | c => c

/-- exact arithmetic, but sums of counts are stored rounded -/
@[reducible] noncomputable def roundArith (rnd : ℝ → ℝ) : Arith :=
  { Arith.xr with nls := fun a b => rounded rnd (XR.negLogSum a b) }

/-- the cost of one more -/
noncomputable def oneMore (x : ℝ) : ℝ := -Real.log (Real.exp (-x) + 1)

theorem oneMore_mono : Monotone oneMore := fun x y h => by
  have h1 : Real.exp (-y) ≤ Real.exp (-x) := Real.exp_le_exp.2 (by linarith)
  have h2 := Real.log_le_log (x := Real.exp (-y) + 1) (by positivity) (by linarith : _ ≤ Real.exp (-x) + 1)
  unfold oneMore
  linarith

theorem oneMore_nonpos (x : ℝ) : oneMore x ≤ 0 := by
  have h := Real.log_nonneg (x := Real.exp (-x) + 1) (by have := Real.exp_pos (-x); linarith)
  unfold oneMore
  linarith

theorem grown_round (rnd : ℝ → ℝ) (n : Nat) :
    grown (roundArith rnd) (.fin 0) n = .fin ((fun x => rnd (oneMore x))^[n] 0) := by
  induction n with
  | zero => rfl
  | succ n ih =>
    show rounded rnd (XR.negLogSum (grown (roundArith rnd) (.fin 0) n) (.fin 0)) = _
    rw [ih, Function.iterate_succ_apply']
    simp [XR.negLogSum, rounded, oneMore]

/-- the costs that counting reaches lie between a cost where it stands still and 0 -/
theorem round_range {rnd : ℝ → ℝ} (hm : Monotone rnd) (h0 : rnd 0 = 0) {p : ℝ} (hp : p ≤ 0) (hfix : p ≤ rnd (oneMore p)) (n : Nat) :
    p ≤ (fun x => rnd (oneMore x))^[n] 0 ∧ (fun x => rnd (oneMore x))^[n] 0 ≤ 0 := by
  induction n with
  | zero => exact ⟨hp, le_refl _⟩
  | succ n ih =>
    rw [Function.iterate_succ_apply']
    exact ⟨hfix.trans (hm (oneMore_mono ih.1)), (hm (oneMore_nonpos _)).trans h0.le⟩

theorem round_nonpos {rnd : ℝ → ℝ} (hm : Monotone rnd) (h0 : rnd 0 = 0) (n : Nat) : (fun x => rnd (oneMore x))^[n] 0 ≤ 0 := by
  cases n with
  | zero => exact le_refl _
  | succ n => rw [Function.iterate_succ_apply']; exact (hm (oneMore_nonpos _)).trans h0.le

open Classical in
/-- counts rounded in any monotone way are counts -/
theorem round_counting {rnd : ℝ → ℝ} (hm : Monotone rnd) (h0 : rnd 0 = 0) {o : Options XR} (hb : o.beta ≠ .nan) :
    Counting (roundArith rnd) (initParameters (roundArith rnd) o).beta := by
  have hpar : (initParameters (roundArith rnd) o).beta = (initParameters Arith.xr { o with alpha := .fin 0 }).beta := rfl
  have hbeta : (initParameters (roundArith rnd) o).beta = .fin (effective o.beta (3/4)) := by
    rw [hpar]; exact (parameters { o with alpha := .fin 0 } (by simp) hb).2
  obtain ⟨r1, r2⟩ := effective_range o.beta (d := 3/4) (by norm_num) (by norm_num)
  refine ⟨fun n => ?_, fun n => ?_, by simp⟩
  · show decide (grown (roundArith rnd) (.fin 0) n = .pinf) = false
    rw [grown_round]; simp
  · show decide (XR.le ((roundArith rnd).cost _) (grown (roundArith rnd) (.fin 0) n)) = false
    rw [hbeta, grown_round]
    show decide (XR.le (XR.negLog (.fin _)) _) = false
    have h1 := round_nonpos hm h0 n
    have h3 := Real.log_neg r1 r2
    rw [XR.negLog_fin r1.le]
    rw [XR.costOf, if_neg r1.ne', decide_eq_false_iff_not]
    show ¬ (-Real.log _ ≤ _)
    linarith

/-- **C113** Whatever the rounding of costs, as long as it keeps their order: if rounding undoes one more at the cost `p`, no count is
ever above `e^(-p)`. -/
theorem C113_rounding {rnd : ℝ → ℝ} (hm : Monotone rnd) (h0 : rnd 0 = 0) {p : ℝ} (hp : p ≤ 0)
    (hfix : p ≤ rnd (-Real.log (Real.exp (-p) + 1))) {o : Options XR} (hb : o.beta ≠ .nan) {m0 m : Model (roundArith rnd)}
    (hi : Initial (roundArith rnd) (Reached (roundArith rnd)) o m0) {encode : Int → Str} {tr : List (Op × Answer (roundArith rnd))}
    (hr : Run encode m0 tr m) {s : Nat} {y : Int} {c : XR} (h : count (roundArith rnd) m.core.fst s y = some c) :
    ∃ x : ℝ, c = .fin x ∧ 1 ≤ Real.exp (-x) ∧ Real.exp (-x) ≤ Real.exp (-p) := by
  obtain ⟨n, hn⟩ := (C113_counts (round_counting hm h0 hb) hi hr h).1
  obtain ⟨h1, h2⟩ := round_range hm h0 hp hfix n
  refine ⟨_, hn.trans (grown_round rnd n), ?_, Real.exp_le_exp.2 (by linarith)⟩
  rw [← Real.exp_zero]
  exact Real.exp_le_exp.2 (by linarith)

/-- one more than `e^15` is lost among the multiples of `2^-20` -/
theorem float_fix {rnd : ℝ → ℝ} (hf : ∀ x : ℝ, -16 ≤ x → x ≤ -8 → ∃ k : ℤ, rnd x = k / 2 ^ 20 ∧ |k / 2 ^ 20 - x| ≤ 1 / 2 ^ 21) :
    (-15 : ℝ) ≤ rnd (-Real.log (Real.exp (-(-15)) + 1)) := by
  have he : (2 : ℝ) ^ 21 < Real.exp 15 := by
    have h1 : Real.exp 15 = Real.exp 1 ^ 15 := by rw [← Real.exp_nat_mul]; norm_num
    rw [h1]
    have h2 : (2.7 : ℝ) < Real.exp 1 := by have := Real.exp_one_gt_d9; linarith
    have h3 : (2.7 : ℝ) ^ 15 < Real.exp 1 ^ 15 := pow_lt_pow_left₀ h2 (by norm_num) (by norm_num)
    refine lt_trans ?_ h3
    norm_num
  have hpos := Real.exp_pos 15
  have hlog : Real.log (Real.exp (-(-15)) + 1) < 15 + 1 / 2 ^ 21 := by
    rw [neg_neg, show Real.exp 15 + 1 = Real.exp 15 * (1 + (Real.exp 15)⁻¹) by field_simp,
      Real.log_mul hpos.ne' (by positivity), Real.log_exp]
    have h1 := Real.log_le_sub_one_of_pos (x := 1 + (Real.exp 15)⁻¹) (by positivity)
    have h2 : (Real.exp 15)⁻¹ < 1 / 2 ^ 21 := by
      rw [one_div]
      exact inv_strictAnti₀ (by positivity) he
    linarith
  have hlow : 15 ≤ Real.log (Real.exp (-(-15)) + 1) := by
    rw [neg_neg]
    have := Real.log_le_log hpos (show Real.exp 15 ≤ Real.exp 15 + 1 by linarith)
    rwa [Real.log_exp] at this
  set L := Real.log (Real.exp (-(-15)) + 1)
  obtain ⟨k, h1, h2⟩ := hf (-L) (by norm_num at hlog ⊢; linarith) (by linarith)
  rw [h1, le_div_iff₀ (by positivity)]
  have h3 := (abs_le.1 h2).1
  have h4 : (-15 : ℝ) - 1 / 2 ^ 20 < k / 2 ^ 20 := by norm_num at hlog h3 ⊢; linarith
  rw [lt_div_iff₀ (by positivity)] at h4
  have h5 : (-15 * 2 ^ 20 - 1 : ℤ) < k := by
    have : ((-15 * 2 ^ 20 - 1 : ℤ) : ℝ) < k := by push_cast; norm_num at h4 ⊢; linarith
    exact_mod_cast this
  have h6 : (-15 * 2 ^ 20 : ℤ) ≤ k := by omega
  exact_mod_cast h6

/-- **C113** Floats between 8 and 16 are the multiples of `2^-20`: with costs rounded to the nearest of them there, and in any way that
keeps the order elsewhere, no count is ever above `e^15` (about 3.3 million). -/
theorem C113_float {rnd : ℝ → ℝ} (hm : Monotone rnd) (h0 : rnd 0 = 0)
    (hf : ∀ x : ℝ, -16 ≤ x → x ≤ -8 → ∃ k : ℤ, rnd x = k / 2 ^ 20 ∧ |k / 2 ^ 20 - x| ≤ 1 / 2 ^ 21) {o : Options XR} (hb : o.beta ≠ .nan)
    {m0 m : Model (roundArith rnd)} (hi : Initial (roundArith rnd) (Reached (roundArith rnd)) o m0) {encode : Int → Str}
    {tr : List (Op × Answer (roundArith rnd))} (hr : Run encode m0 tr m) {s : Nat} {y : Int} {c : XR}
    (h : count (roundArith rnd) m.core.fst s y = some c) :
    ∃ x : ℝ, c = .fin x ∧ 1 ≤ Real.exp (-x) ∧ Real.exp (-x) ≤ Real.exp 15 := by
  simpa using C113_rounding hm h0 (p := -15) (by norm_num) (float_fix hf) hb hi hr h

/-- **C113** Counting comes to stand still: rounding that keeps the order, leaves rounded costs alone, and has only finitely many values
between 0 and a cost where it undoes one more. -/
theorem C113_stalls {rnd : ℝ → ℝ} (hm : Monotone rnd) (h0 : rnd 0 = 0) (hid : ∀ x, rnd (rnd x) = rnd x) {p : ℝ} (hp : p ≤ 0)
    (hfix : p ≤ rnd (-Real.log (Real.exp (-p) + 1))) (hfin : (Set.range rnd ∩ Set.Icc p 0).Finite) : ∃ N, Stalls (roundArith rnd) N := by
  by_contra hno
  set x : ℕ → ℝ := fun n => (fun x => rnd (oneMore x))^[n] 0 with hx
  have hrnd : ∀ n, rnd (x n) = x n := fun n => by
    cases n with
    | zero => exact h0
    | succ n => simp only [hx, Function.iterate_succ_apply']; exact hid _
  have hone : ∀ y, oneMore y ≤ y := fun y => by
    have h1 := Real.log_le_log (Real.exp_pos (-y)) (show Real.exp (-y) ≤ Real.exp (-y) + 1 by linarith)
    rw [Real.log_exp] at h1
    unfold oneMore
    linarith
  have hlt : ∀ n, x (n + 1) < x n := fun n => by
    have h1 : x (n + 1) = rnd (oneMore (x n)) := by simp only [hx, Function.iterate_succ_apply']
    refine lt_of_le_of_ne ?_ fun e => hno ⟨n, ?_⟩
    · rw [h1]
      exact (hm (hone _)).trans (hrnd n).le
    · show grown (roundArith rnd) (.fin 0) (n + 1) = grown (roundArith rnd) (.fin 0) n
      rw [grown_round, grown_round]
      exact congrArg XR.fin e
  have hmem : ∀ n, x n ∈ Set.range rnd ∩ Set.Icc p 0 := fun n => ⟨⟨x n, hrnd n⟩, round_range hm h0 hp hfix n⟩
  exact Set.infinite_of_injective_forall_mem (strictAnti_nat_of_succ_lt hlt).injective hmem hfin

/-- such a rounding: to the nearest multiple of `2^-20` everywhere -/
example : ∃ rnd : ℝ → ℝ, Monotone rnd ∧ rnd 0 = 0 ∧ (∀ x, rnd (rnd x) = rnd x) ∧ (Set.range rnd ∩ Set.Icc (-15) 0).Finite ∧
    (∀ x : ℝ, -16 ≤ x → x ≤ -8 → ∃ k : ℤ, rnd x = k / 2 ^ 20 ∧ |k / 2 ^ 20 - x| ≤ 1 / 2 ^ 21) ∧ ∃ N, Stalls (roundArith rnd) N := by
  suffices h : ∃ rnd : ℝ → ℝ, Monotone rnd ∧ rnd 0 = 0 ∧ (∀ x, rnd (rnd x) = rnd x) ∧ (Set.range rnd ∩ Set.Icc (-15) 0).Finite ∧
      ∀ x : ℝ, -16 ≤ x → x ≤ -8 → ∃ k : ℤ, rnd x = k / 2 ^ 20 ∧ |k / 2 ^ 20 - x| ≤ 1 / 2 ^ 21 by
    obtain ⟨rnd, h1, h2, h3, h4, h5⟩ := h
    exact ⟨rnd, h1, h2, h3, h4, h5, C113_stalls h1 h2 h3 (by norm_num) (float_fix h5) h4⟩
  refine ⟨fun x => round (x * 2 ^ 20) / 2 ^ 20, fun x y h => ?_, by simp, fun x => ?_, ?_, fun x _ _ => ⟨round (x * 2 ^ 20), rfl, ?_⟩⟩
  · have h1 : round (x * 2 ^ 20) ≤ round (y * 2 ^ 20) := by
      rw [round_eq, round_eq]
      exact Int.floor_le_floor (by nlinarith)
    have h2 : ((round (x * 2 ^ 20) : ℤ) : ℝ) ≤ round (y * 2 ^ 20) := by exact_mod_cast h1
    exact div_le_div_of_nonneg_right h2 (by positivity)
  · have : ((round (x * 2 ^ 20) : ℤ) : ℝ) / 2 ^ 20 * 2 ^ 20 = (round (x * 2 ^ 20) : ℤ) := by field_simp
    simp only [this, round_intCast]
  · refine ((Set.finite_Icc (-15 * 2 ^ 20 : ℤ) 0).image fun k : ℤ => (k : ℝ) / 2 ^ 20).subset ?_
    rintro _ ⟨⟨x, rfl⟩, h1, h2⟩
    refine ⟨round (x * 2 ^ 20), ⟨?_, ?_⟩, rfl⟩
    · simp only [le_div_iff₀ (show (0 : ℝ) < 2 ^ 20 by positivity)] at h1
      exact_mod_cast h1
    · simp only [div_le_iff₀ (show (0 : ℝ) < 2 ^ 20 by positivity), zero_mul] at h2
      exact_mod_cast h2
  · have h1 := abs_le.1 (abs_sub_round (x * 2 ^ 20))
    rw [abs_le]
    constructor
    · rw [le_sub_iff_add_le, le_div_iff₀ (by positivity)]; norm_num at h1 ⊢; linarith
    · rw [sub_le_iff_le_add, div_le_iff₀ (by positivity)]; norm_num at h1 ⊢; linarith

/-- With any such rounding there is a model read from a vocabulary, and a lesson gives it a count. -/
example {rnd : ℝ → ℝ} (hm : Monotone rnd) (h0 : rnd 0 = 0) : ∃ (m0 m1 : Model (roundArith rnd)) (c : XR),
    Initial (roundArith rnd) (Reached (roundArith rnd)) Demo.opts m0 ∧
    updateLMCounts Demo.enc (0 : Nat) [97] 1000000000 m0 = .ok (true, m1) ∧ count (roundArith rnd) m1.core.fst 0 1 = some c := by
  have hc := round_counting hm h0 (o := Demo.opts) Demo.beta_ok
  obtain ⟨m0, _, V, h1, _, h3, _, h5, h4, _⟩ := read_vocab_ok (A := roundArith rnd) (Ok := Reached (roundArith rnd)) hc.laws Demo.vocab_ok
  have hi : Initial (roundArith rnd) (Reached (roundArith rnd)) Demo.opts m0 := .vocabulary Demo.vocab_ok h1
  have hlen : 0 < m0.core.fst.states.length := by rw [h4]; simp [freshFst]
  obtain ⟨m1, e1, _⟩ := C26_update_succeeds hc.laws hi (.nil (encode := Demo.enc)) hlen [97] 1000000000
  have hsym : m0.symbols = epsilonTable ++ [(1, [97]), (2, [98])] := by
    clear h4
    have h1 := h1
    unfold read at h1
    obtain ⟨r, e1, h1⟩ := Res.bind_eq.mp h1
    obtain ⟨r2, e2, h1⟩ := Res.bind_eq.mp h1
    obtain ⟨c, e3, h1⟩ := Res.bind_eq.mp h1
    have hr : r = (makeEmpty (roundArith rnd), epsilonTable) := (Res.pure_inj e1).symm
    subst hr
    have hr2 : r2.2 = epsilonTable ++ [(1, [97]), (2, [98])] := by
      have := Res.pure_inj (e2.symm.trans (by rfl : readVocab (roundArith rnd) .none (some (some Demo.vocab))
        (makeEmpty (roundArith rnd), epsilonTable) = pure _))
      rw [this]; rfl
    have hm := Res.pure_inj h1
    rw [← hm]
    rfl
  have hx := (C27_update_exclusion hc.laws hi (.nil (encode := Demo.enc)) h5 hlen (by omega) (y := 1) (by rw [hsym]; rfl) (by omega) e1).2.2.2.2.1
  cases hcount : count (roundArith rnd) m0.core.fst 0 1 with
  | some c =>
    obtain ⟨j, rfl⟩ := (C113_counts hc hi (.nil (encode := Demo.enc)) hcount).1
    rw [hcount, bumps_grown] at hx
    exact ⟨m0, m1, _, hi, e1, hx⟩
  | none =>
    obtain ⟨k, hk⟩ : ∃ k, (1000000000 : Int).toNat = k + 1 := ⟨999999999, by rfl⟩
    rw [hcount, hk] at hx
    have hx' : count (roundArith rnd) m1.core.fst 0 1 = bumps (roundArith rnd) k (some (grown (roundArith rnd) (roundArith rnd).one 0)) := hx
    rw [bumps_grown] at hx'
    exact ⟨m0, m1, _, hi, e1, hx'⟩

end Mozolm.Ppm
