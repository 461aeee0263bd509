import Verif.Server.Handlers
import Verif.XR
import Verif.Hub.Model

/-!
# The Java example client

`mozolm/java/com/google/mozolm/examples/SimpleClientExample.java`.
-/

namespace Mozolm.System
open Mozolm.Hub Mozolm.Server

/-- What a method of the example ends with. -/
inductive JavaResult (α : Type)
  | returns (x : α)
  /-- the stub throws because of an error status -/
  | refused
  /-- the `AssertionError` -/
  | assertion
  /-- `ArrayList.get` throws -/
  | outOfBounds (x : α)

/-- `Double.compare(a, b) <= 0`: the order of the numbers, `NaN` above all (signed zeros are not distinguished). -/
def doubleLe : XR → XR → Prop
  | _, .nan => True
  | .nan, _ => False
  | a, b => XR.le a b

open Classical in
/-- `ProbComparator.compare(a, b) <= 0`, SimpleClientExample.java:118-124: minus `Double.compare`. -/
noncomputable def probCompare (a b : XR × Str) : Bool := decide (doubleLe b.1 a.1)

/-- `getTopCandidates`, SimpleClientExample.java:89-112: `getLMScores` at state -1 (:93-98), as many symbols as probabilities or
an `AssertionError` (:99-103), the pairs (:104-109), sorted (:110; `ArrayList.sort` is stable). -/
noncomputable def getTopCandidates {σ : Type} (env : Env Arith.xr σ) (h : Hub Arith.xr σ) (context : List Int) :
    Except Fault (JavaResult (List (XR × Str)) × Hub Arith.xr σ) := do
  let r ← getLMScores env h context (-1)
  match r.1 with
  | .invalidArgument => .ok (.refused, r.2)
  | .ok scores =>
    if scores.symbols.length ≠ scores.probs.length then .ok (.assertion, r.2)
    else .ok (.returns ((scores.probs.zip scores.symbols).mergeSort probCompare), r.2)

/-- The loop over the top candidates, SimpleClientExample.java:75-82, that logs them: `topCands.get(i)` throws when there are
fewer. Each line is the candidate and whether it is followed by the line "Correct hypothesis found" (:79-81). -/
def logTop : Nat → List (XR × Str) → List ((XR × Str) × Bool) → JavaResult (List ((XR × Str) × Bool))
  | 0, _, acc => .returns acc
  | _ + 1, [], acc => .outOfBounds acc
  | n + 1, c :: cs, acc => logTop n cs (acc ++ [(c, c.2 == [114])])

/-- "Hello wo" -/
def helloWo : List Int := [72, 101, 108, 108, 111, 32, 119, 111]

/-- `run`, SimpleClientExample.java:62-86, connected to a server: the candidates after "Hello wo" (:71-72), of which five are
logged. -/
noncomputable def runExample {σ : Type} (env : Env Arith.xr σ) (h : Hub Arith.xr σ) :
    Except Fault (JavaResult (List ((XR × Str) × Bool)) × Hub Arith.xr σ) := do
  let r ← getTopCandidates env h helloWo
  match r.1 with
  | .returns cands => .ok (logTop 5 cands [], r.2)
  | .refused => .ok (.refused, r.2)
  | .assertion => .ok (.assertion, r.2)
  | .outOfBounds _ => .error .ub  -- not by `getTopCandidates`

end Mozolm.System
