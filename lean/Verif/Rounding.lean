import Verif.XR

/-!
# Arithmetic with rounding

A `Rounding φ ε δ` is any arithmetic whose operations on costs are accurate within `ε` (absolutely) and whose operations on
plain numbers are accurate within the factor `1 ± δ`, or else raise an exception flag and give `NaN`; this they may do only if
`φ`.  A flag stands for a result that is too large or too small for that accuracy; `NaN` is passed on by all operations, so
that a result that is not `NaN` was obtained without raising a flag.  In this sense a computation with IEEE `double`s in which
no plain number underflows or overflows and the costs stay below `2 ^ k` in size is one with `δ` about `2 ^ -52` and `ε` about
`2 ^ (k - 52)` (a unit in the last place, times a small number for the library functions).  A `Rounding False ε δ` raises no
flags.  Comparisons are exact.
-/

namespace Mozolm

namespace XR

/-- `x` is `y` within `e`, or a flag was raised (which may be only if `φ`) -/
def NearC (φ : Prop) (e : ℝ) : XR → XR → Prop
  | nan, x => φ ∨ x = nan
  | fin a, fin b => |a - b| ≤ e
  | pinf, pinf => True
  | ninf, ninf => True
  | _, _ => False

/-- `x` is `y` within the factor `1 ± d`, or a flag was raised (which may be only if `φ`) -/
def NearD (φ : Prop) (d : ℝ) : XR → XR → Prop
  | nan, x => φ ∨ x = nan
  | fin a, fin b => |a - b| ≤ d * |b|
  | pinf, pinf => True
  | ninf, ninf => True
  | _, _ => False

end XR

/-- Operations that are accurate within `ε` on costs and `1 ± δ` on plain numbers, and
raise flags only if `φ`. -/
structure Rounding (φ : Prop) (ε δ : ℝ) where
  nls : XR → XR → XR
  nld : XR → XR → XR
  times : XR → XR → XR
  over : XR → XR → XR
  cost : XR → XR
  prob : XR → XR
  ofInt : Int → XR
  dadd : XR → XR → XR
  dmul : XR → XR → XR
  ddiv : XR → XR → XR
  nls_near : ∀ a b, XR.NearC φ ε (nls a b) (XR.negLogSum a b)
  nld_near : ∀ a b, XR.NearC φ ε (nld a b) (XR.negLogDiff a b)
  times_near : ∀ a b, XR.NearC φ ε (times a b) (XR.add a b)
  over_near : ∀ a b, XR.NearC φ ε (over a b) (XR.sub a b)
  cost_near : ∀ a, XR.NearC φ ε (cost a) (XR.negLog a)
  prob_near : ∀ a, XR.NearD φ δ (prob a) (XR.expNeg a)
  ofInt_near : ∀ n : Int, XR.NearD φ δ (ofInt n) (.fin n)
  dadd_near : ∀ a b, XR.NearD φ δ (dadd a b) (XR.add a b)
  dmul_near : ∀ a b, XR.NearD φ δ (dmul a b) (XR.mul a b)
  ddiv_near : ∀ a b, XR.NearD φ δ (ddiv a b) (XR.div a b)

open Classical in
/-- The arithmetic of these operations. -/
@[reducible] noncomputable def Rounding.arith {φ : Prop} {ε δ : ℝ} (F : Rounding φ ε δ) : Arith where
  C := XR
  D := XR
  one := .fin 0
  inf := .pinf
  nls := F.nls
  nld := F.nld
  times := F.times
  over := F.over
  ge a b := decide (XR.le b a)
  isInf a := decide (a = .pinf)
  cost := F.cost
  prob := F.prob
  ofInt := F.ofInt
  dadd := F.dadd
  dmul := F.dmul
  ddiv := F.ddiv
  dlt a b := decide (XR.lt a b)
  dle a b := decide (XR.le a b)

/-- The cost `c` is that of the probability `p` within `e`; or a flag was raised (only if `φ`). -/
def CostNear (φ : Prop) (e : ℝ) (c : XR) (p : ℝ) : Prop :=
  (φ ∧ c = .nan) ∨ (p = 0 ∧ c = .pinf) ∨ (0 < p ∧ ∃ x, c = .fin x ∧ |x + Real.log p| ≤ e)

/-- The number `x` is `p` within the factor `exp e`; or a flag was raised (only if `φ`). -/
def ValueNear (φ : Prop) (e : ℝ) (x : XR) (p : ℝ) : Prop :=
  (φ ∧ x = .nan) ∨ ∃ y, x = .fin y ∧ p * Real.exp (-e) ≤ y ∧ y ≤ p * Real.exp e

/-- The error of one operation on plain numbers, as a logarithm. -/
noncomputable def slack (δ : ℝ) : ℝ := -Real.log (1 - δ)

end Mozolm
