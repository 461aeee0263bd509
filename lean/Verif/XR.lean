import Verif.Arith
import Mathlib.Analysis.SpecialFunctions.Log.Basic

/-!
# Exact real arithmetic with IEEE special values

`Arith.xr` interprets the C++ `double` operations over the reals extended with `+inf`, `-inf` and
`NaN` (the sign of zero is not represented; rounding and finite overflow are not modelled).
`costOf p` is the negative-log cost of the non-negative real `p`; the lemmas below say that the cost
operations are the corresponding operations on probabilities.
-/

namespace Mozolm
open Real

inductive XR where
  | fin (r : ℝ)
  | pinf
  | ninf
  | nan

namespace XR

noncomputable section
open Classical

/-- IEEE addition -/
def add : XR → XR → XR
  | fin a, fin b => fin (a + b)
  | nan, _ => nan
  | _, nan => nan
  | pinf, ninf => nan
  | ninf, pinf => nan
  | pinf, _ => pinf
  | _, pinf => pinf
  | ninf, _ => ninf
  | _, ninf => ninf

/-- IEEE negation -/
def neg : XR → XR
  | fin a => fin (-a)
  | pinf => ninf
  | ninf => pinf
  | nan => nan

/-- IEEE subtraction -/
def sub (a b : XR) : XR := add a (neg b)

/-- sign-aware multiplication by an infinity -/
def scaleInf (r : ℝ) (pos : Bool) : XR :=
  if r = 0 then nan else if (0 < r) = (pos = true) then pinf else ninf

/-- IEEE multiplication -/
def mul : XR → XR → XR
  | fin a, fin b => fin (a * b)
  | nan, _ => nan
  | _, nan => nan
  | fin a, pinf => scaleInf a true
  | fin a, ninf => scaleInf a false
  | pinf, fin b => scaleInf b true
  | ninf, fin b => scaleInf b false
  | pinf, pinf => pinf
  | ninf, ninf => pinf
  | pinf, ninf => ninf
  | ninf, pinf => ninf

/-- IEEE division (a zero divisor counts as `+0`) -/
def div : XR → XR → XR
  | nan, _ => nan
  | _, nan => nan
  | fin a, fin b =>
    if b = 0 then (if a = 0 then nan else if 0 < a then pinf else ninf) else fin (a / b)
  | fin _, pinf => fin 0
  | fin _, ninf => fin 0
  | pinf, fin b => if 0 ≤ b then pinf else ninf
  | ninf, fin b => if 0 ≤ b then ninf else pinf
  | _, _ => nan

/-- IEEE `a < b` -/
def lt : XR → XR → Prop
  | fin a, fin b => a < b
  | fin _, pinf => True
  | ninf, fin _ => True
  | ninf, pinf => True
  | _, _ => False

/-- IEEE `a <= b` -/
def le : XR → XR → Prop
  | fin a, fin b => a ≤ b
  | fin _, pinf => True
  | ninf, fin _ => True
  | ninf, pinf => True
  | pinf, pinf => True
  | ninf, ninf => True
  | _, _ => False

/-- `-std::log` -/
def negLog : XR → XR
  | fin r => if 0 < r then fin (-Real.log r) else if r = 0 then pinf else nan
  | pinf => ninf
  | ninf => nan
  | nan => nan

/-- `std::exp(-c)` -/
def expNeg : XR → XR
  | fin r => fin (Real.exp (-r))
  | pinf => fin 0
  | ninf => pinf
  | nan => nan

/-- `sfst::NegLogSum` (OpenGrm SFst): `+inf` is neutral, otherwise `-log(e^-a + e^-b)`. -/
def negLogSum : XR → XR → XR
  | fin a, fin b => fin (-Real.log (Real.exp (-a) + Real.exp (-b)))
  | pinf, b => b
  | a, pinf => a
  | nan, _ => nan
  | _, nan => nan
  | _, _ => ninf

/-- `sfst::NegLogDiff` (OpenGrm SFst): `-log(e^-a - e^-b)`; `+inf` is neutral on the right, equal
arguments give `+inf`, a larger subtrahend gives `NaN`. -/
def negLogDiff : XR → XR → XR
  | a, pinf => a
  | fin a, fin b => negLog (fin (Real.exp (-a) - Real.exp (-b)))
  | _, _ => nan

end
end XR

open Classical in
/-- Exact real arithmetic with IEEE special values. -/
@[reducible] noncomputable def Arith.xr : Arith where
  C := XR
  D := XR
  one := .fin 0
  inf := .pinf
  nls := XR.negLogSum
  nld := XR.negLogDiff
  times := XR.add
  over := XR.sub
  ge a b := decide (XR.le b a)
  isInf a := decide (a = .pinf)
  cost := XR.negLog
  prob := XR.expNeg
  ofInt n := .fin n
  dadd := XR.add
  dmul := XR.mul
  ddiv := XR.div
  dlt a b := decide (XR.lt a b)
  dle a b := decide (XR.le a b)

namespace XR
open Classical

/-- the cost of the non-negative real `p` -/
noncomputable def costOf (p : ℝ) : XR := if p = 0 then pinf else fin (-Real.log p)

theorem costOf_zero : costOf 0 = pinf := by simp [costOf]

theorem costOf_one : costOf 1 = fin 0 := by simp [costOf]

theorem costOf_pos {p : ℝ} (h : 0 < p) : costOf p = fin (-Real.log p) := by
  simp [costOf, h.ne']

theorem negLog_fin {p : ℝ} (h : 0 ≤ p) : negLog (fin p) = costOf p := by
  rcases h.eq_or_lt with rfl | h
  · simp [negLog, costOf]
  · simp [negLog, costOf, h, h.ne']

theorem expNeg_costOf {p : ℝ} (h : 0 ≤ p) : expNeg (costOf p) = fin p := by
  rcases h.eq_or_lt with rfl | h
  · simp [costOf, expNeg]
  · simp [costOf, expNeg, h.ne', Real.exp_log h]

theorem negLogSum_costOf {p q : ℝ} (hp : 0 ≤ p) (hq : 0 ≤ q) :
    negLogSum (costOf p) (costOf q) = costOf (p + q) := by
  rcases hp.eq_or_lt with rfl | hp
  · rw [costOf_zero, zero_add]; cases costOf q <;> rfl
  rcases hq.eq_or_lt with rfl | hq
  · rw [costOf_zero, add_zero, costOf_pos hp]; rfl
  · rw [costOf_pos hp, costOf_pos hq, costOf_pos (by positivity)]
    simp [negLogSum, Real.exp_log hp, Real.exp_log hq]

theorem add_costOf {p q : ℝ} (hp : 0 ≤ p) (hq : 0 ≤ q) :
    add (costOf p) (costOf q) = costOf (p * q) := by
  rcases hp.eq_or_lt with rfl | hp
  · rw [costOf_zero, zero_mul, costOf_zero]; unfold costOf; split <;> rfl
  rcases hq.eq_or_lt with rfl | hq
  · rw [costOf_zero, mul_zero, costOf_zero, costOf_pos hp]; rfl
  · rw [costOf_pos hp, costOf_pos hq, costOf_pos (by positivity), Real.log_mul hp.ne' hq.ne']
    simp only [add, fin.injEq]; ring

theorem sub_costOf {p q : ℝ} (hp : 0 ≤ p) (hq : 0 < q) :
    sub (costOf p) (costOf q) = costOf (p / q) := by
  rcases hp.eq_or_lt with rfl | hp
  · rw [costOf_zero, zero_div, costOf_zero, costOf_pos hq]; rfl
  · rw [costOf_pos hp, costOf_pos hq, costOf_pos (by positivity), Real.log_div hp.ne' hq.ne']
    simp only [sub, neg, add, fin.injEq]; ring

theorem negLogDiff_costOf {p q : ℝ} (hq : 0 ≤ q) (hpq : q ≤ p) :
    negLogDiff (costOf p) (costOf q) = costOf (p - q) := by
  rcases hq.eq_or_lt with rfl | hq
  · rw [costOf_zero, sub_zero]; cases costOf p <;> rfl
  · have hp : 0 < p := lt_of_lt_of_le hq hpq
    rw [costOf_pos hp, costOf_pos hq]
    simp only [negLogDiff, neg_neg, Real.exp_log hp, Real.exp_log hq]
    exact negLog_fin (by linarith)

theorem le_costOf {p q : ℝ} (hp : 0 ≤ p) (hq : 0 ≤ q) :
    le (costOf q) (costOf p) ↔ p ≤ q := by
  rcases hp.eq_or_lt with rfl | hp
  · simp only [costOf_zero, hq, iff_true]
    unfold costOf; split <;> trivial
  rcases hq.eq_or_lt with rfl | hq
  · rw [costOf_zero, costOf_pos hp]
    simp only [le, false_iff]; linarith
  · rw [costOf_pos hp, costOf_pos hq]
    simp only [le, neg_le_neg_iff]
    exact Real.log_le_log_iff hp hq

theorem costOf_eq_pinf {p : ℝ} : costOf p = pinf ↔ p = 0 := by
  unfold costOf; split <;> simp_all

theorem costOf_inj {p q : ℝ} (hp : 0 ≤ p) (hq : 0 ≤ q) (h : costOf p = costOf q) : p = q := by
  have := congrArg expNeg h
  rw [expNeg_costOf hp, expNeg_costOf hq] at this
  exact XR.fin.inj this

end XR
end Mozolm
