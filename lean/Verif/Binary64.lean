import Verif.Rounding
import Mathlib.Data.Int.Log
import Mathlib.Algebra.Order.Round

/-!
# Arithmetic with 53 significant bits

Concrete `Rounding`s.  `binary64`: every result is rounded to the nearest number with 53 significant bits, as in IEEE binary64 arithmetic
without bounds on the exponent and with correctly rounded library functions; a cost above `2 ^ k` raises the flag.  `fixed64`: costs are
rounded to multiples of `2 ^ -g` instead, and there are no flags.
-/

namespace Mozolm

/-- the nearest number with 53 significant bits -/
noncomputable def bits53 (x : ℝ) : ℝ :=
  if x = 0 then 0 else (2 : ℝ) ^ (Int.log 2 |x| - 52) * round (x / (2 : ℝ) ^ (Int.log 2 |x| - 52))

theorem bits53_near (x : ℝ) : |bits53 x - x| ≤ (2 : ℝ) ^ (-53 : Int) * |x| := by
  unfold bits53
  split
  · next h => simp [h]
  · next h =>
    generalize hu : (2 : ℝ) ^ (Int.log 2 |x| - 52) = u
    have hpos : 0 < u := by rw [← hu]; positivity
    have h1 : u * round (x / u) - x = -(u * (x / u - round (x / u))) := by
      field_simp; ring
    rw [h1, abs_neg, abs_mul, abs_of_pos hpos]
    have h2 := abs_sub_round (x / u)
    have h3 : (2 : ℝ) ^ (Int.log 2 |x|) ≤ |x| := by
      have := Int.zpow_log_le_self (b := 2) (R := ℝ) (by norm_num) (abs_pos.2 h)
      exact_mod_cast this
    have h4 : u * (1 / 2) = (2 : ℝ) ^ (-53 : Int) * (2 : ℝ) ^ (Int.log 2 |x|) := by
      rw [← hu, ← zpow_add₀ (by norm_num), show (1 / 2 : ℝ) = (2 : ℝ) ^ (-1 : Int) by norm_num, ← zpow_add₀ (by norm_num)]
      congr 1
      ring
    calc u * |x / u - round (x / u)| ≤ u * (1 / 2) := mul_le_mul_of_nonneg_left h2 hpos.le
      _ = (2 : ℝ) ^ (-53 : Int) * (2 : ℝ) ^ (Int.log 2 |x|) := h4
      _ ≤ (2 : ℝ) ^ (-53 : Int) * |x| := mul_le_mul_of_nonneg_left h3 (by positivity)

/-- a rounded plain number -/
noncomputable def roundD : XR → XR
  | .fin x => .fin (bits53 x)
  | x => x

open Classical in
/-- a rounded cost, the flag being raised above `2 ^ k` -/
noncomputable def roundC (k : Int) : XR → XR
  | .fin x => if |x| ≤ (2 : ℝ) ^ k then .fin (bits53 x) else .nan
  | x => x

theorem roundD_near (φ : Prop) (x : XR) : XR.NearD φ ((2 : ℝ) ^ (-53 : Int)) (roundD x) x := by
  cases x with
  | fin x => exact bits53_near x
  | nan => exact .inr rfl
  | _ => trivial

theorem roundC_near (k : Int) (x : XR) : XR.NearC True ((2 : ℝ) ^ (k - 53)) (roundC k x) x := by
  cases x with
  | fin x =>
    simp only [roundC]
    split
    · next h =>
      refine le_trans (bits53_near x) ?_
      rw [sub_eq_neg_add, zpow_add₀ (by norm_num)]
      exact mul_le_mul_of_nonneg_left h (by positivity)
    · exact .inl trivial
  | nan => exact .inr rfl
  | _ => trivial

/-- Arithmetic with 53 significant bits, for costs up to `2 ^ k`. -/
noncomputable def binary64 (k : Int) : Rounding True ((2 : ℝ) ^ (k - 53)) ((2 : ℝ) ^ (-53 : Int)) where
  nls a b := roundC k (XR.negLogSum a b)
  nld a b := roundC k (XR.negLogDiff a b)
  times a b := roundC k (XR.add a b)
  over a b := roundC k (XR.sub a b)
  cost a := roundC k (XR.negLog a)
  prob a := roundD (XR.expNeg a)
  ofInt n := roundD (.fin n)
  dadd a b := roundD (XR.add a b)
  dmul a b := roundD (XR.mul a b)
  ddiv a b := roundD (XR.div a b)
  nls_near _ _ := roundC_near k _
  nld_near _ _ := roundC_near k _
  times_near _ _ := roundC_near k _
  over_near _ _ := roundC_near k _
  cost_near _ := roundC_near k _
  prob_near _ := roundD_near _ _
  ofInt_near _ := roundD_near _ _
  dadd_near _ _ := roundD_near _ _
  dmul_near _ _ := roundD_near _ _
  ddiv_near _ _ := roundD_near _ _

/-- a cost rounded to a multiple of `2 ^ -g` -/
noncomputable def roundF (g : Nat) : XR → XR
  | .fin x => .fin (round (x * 2 ^ g) / 2 ^ g)
  | x => x

theorem roundF_near (φ : Prop) (g : Nat) (x : XR) : XR.NearC φ ((1 / 2 : ℝ) ^ (g + 1)) (roundF g x) x := by
  cases x with
  | fin x =>
    show |(round (x * 2 ^ g) : ℝ) / 2 ^ g - x| ≤ _
    have hp : (0 : ℝ) < 2 ^ g := by positivity
    have e : (round (x * 2 ^ g) : ℝ) / 2 ^ g - x = -((x * 2 ^ g - round (x * 2 ^ g)) / 2 ^ g) := by
      field_simp; ring
    rw [e, abs_neg, abs_div, abs_of_pos hp, div_le_iff₀ hp]
    refine (abs_sub_round _).trans (le_of_eq ?_)
    rw [pow_succ, mul_right_comm, ← mul_pow]
    norm_num
  | nan => exact .inr rfl
  | _ => trivial

/-- Arithmetic with 53 significant bits for plain numbers and costs in multiples of `2 ^ -g`: it raises no flags. -/
noncomputable def fixed64 (g : Nat) : Rounding False ((1 / 2 : ℝ) ^ (g + 1)) ((2 : ℝ) ^ (-53 : Int)) where
  nls a b := roundF g (XR.negLogSum a b)
  nld a b := roundF g (XR.negLogDiff a b)
  times a b := roundF g (XR.add a b)
  over a b := roundF g (XR.sub a b)
  cost a := roundF g (XR.negLog a)
  prob a := roundD (XR.expNeg a)
  ofInt n := roundD (.fin n)
  dadd a b := roundD (XR.add a b)
  dmul a b := roundD (XR.mul a b)
  ddiv a b := roundD (XR.div a b)
  nls_near _ _ := roundF_near _ g _
  nld_near _ _ := roundF_near _ g _
  times_near _ _ := roundF_near _ g _
  over_near _ _ := roundF_near _ g _
  cost_near _ := roundF_near _ g _
  prob_near _ := roundD_near _ _
  ofInt_near _ := roundD_near _ _
  dadd_near _ _ := roundD_near _ _
  dmul_near _ _ := roundD_near _ _
  ddiv_near _ _ := roundD_near _ _

/-- It does round: 1/3 is not represented. -/
theorem binary64_rounds : bits53 (1 / 3) ≠ 1 / 3 := by
  intro h
  unfold bits53 at h
  rw [if_neg (by norm_num)] at h
  have hl : Int.log 2 |(1 / 3 : ℝ)| = -2 := by
    have hab : |(1 / 3 : ℝ)| = 1 / 3 := abs_of_pos (by norm_num)
    rw [hab]
    refine le_antisymm ?_ ?_
    · have : Int.log 2 (1 / 3 : ℝ) < -1 := by
        refine (Int.lt_zpow_iff_log_lt (b := 2) (R := ℝ) (by norm_num) (by norm_num)).1 ?_
        norm_num
      omega
    · refine (Int.zpow_le_iff_le_log (b := 2) (R := ℝ) (by norm_num) (by norm_num)).1 ?_
      norm_num
  rw [hl] at h
  generalize round ((1 / 3 : ℝ) / (2 : ℝ) ^ ((-2 : Int) - 52)) = n at h
  have h2 : (3 : ℝ) * n = 2 ^ 54 := by
    have e : (2 : ℝ) ^ ((-2 : Int) - 52) = ((2 : ℝ) ^ 54)⁻¹ := by norm_num
    rw [e] at h
    field_simp at h
    linarith
  have h3 : (3 : Int) * n = 2 ^ 54 := by exact_mod_cast h2
  omega

end Mozolm
