/-!
# Arithmetic interface and run-time faults

`mozolm` uses the C++ type `double` (and `float` inside FST weights) for two purposes: plain numbers
(probabilities, normalisation constants) and negative-log costs.  The models are generic in a record
`Arith` of the operations the code performs, so structural theorems hold for every arithmetic
(including IEEE doubles with rounding); numeric theorems are proved for `Arith.xr` (file `XR.lean`).
-/

namespace Mozolm

/-- Outcomes that are not values: undefined behaviour, an uncaught C++ exception, and recursion that
did not finish within the fuel given to the model. -/
inductive Fault where
  | ub
  | thrown
  | fuel
  deriving DecidableEq, Repr

/-- Arithmetic used by the code.  `C` is `double` used as a negative-log cost, `D` is `double` used as
a plain number. -/
structure Arith where
  C : Type
  D : Type
  /-- the cost `0.0` (`StdArc::Weight::One()`) -/
  one : C
  /-- the cost `+inf` (`StdArc::Weight::Zero()`) -/
  inf : C
  /-- `sfst::NegLogSum(a, b)`, i.e. `-log(exp(-a) + exp(-b))` -/
  nls : C → C → C
  /-- `sfst::NegLogDiff(a, b)`, i.e. `-log(exp(-a) - exp(-b))` -/
  nld : C → C → C
  /-- `a + b` on costs (`fst::Times`) -/
  times : C → C → C
  /-- `a - b` on costs -/
  over : C → C → C
  /-- `a >= b` on costs -/
  ge : C → C → Bool
  /-- `a == +inf` on costs -/
  isInf : C → Bool
  /-- `-std::log(d)` -/
  cost : D → C
  /-- `std::exp(-c)` -/
  prob : C → D
  /-- conversion from an integer -/
  ofInt : Int → D
  dadd : D → D → D
  dmul : D → D → D
  ddiv : D → D → D
  /-- `a < b` on plain numbers -/
  dlt : D → D → Bool
  /-- `a <= b` on plain numbers -/
  dle : D → D → Bool

/-- The trivial arithmetic, for concrete witnesses about table structure only. -/
def Arith.unit : Arith where
  C := Unit
  D := Unit
  one := ()
  inf := ()
  nls _ _ := ()
  nld _ _ := ()
  times _ _ := ()
  over _ _ := ()
  ge _ _ := true
  isInf _ := false
  cost _ := ()
  prob _ := ()
  ofInt _ := ()
  dadd _ _ := ()
  dmul _ _ := ()
  ddiv _ _ := ()
  dlt _ _ := false
  dle _ _ := true

end Mozolm
