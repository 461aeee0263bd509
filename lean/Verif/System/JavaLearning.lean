import Verif.System.Example
import Verif.System.Session

/-!
# The Java example client that teaches

`mozolm/java/com/google/mozolm/examples/VocabOnlyModelClientExample.java`, on strings of UTF-16 code units as Java has them.
-/

namespace Mozolm.System
open Mozolm.Hub Mozolm.Server
variable {A : Arith} {σ : Type}

/-- `Character.isHighSurrogate`. -/
def highSurrogate (u : Nat) : Bool := decide (0xD800 ≤ u ∧ u < 0xDC00)
/-- `Character.isLowSurrogate`. -/
def lowSurrogate (u : Nat) : Bool := decide (0xDC00 ≤ u ∧ u < 0xE000)

/-- `Character.codePointAt(symbols, pos)` (VocabOnlyModelClientExample.java:111), from the code unit at `pos` and those after it: the
code point of the surrogate pair that begins there, or else the unit. -/
def codePointAt (u : Nat) : List Nat → Int
  | [] => u
  | v :: _ => if highSurrogate u && lowSurrogate v then (u - 0xD800) * 0x400 + (v - 0xDC00) + 0x10000 else u

/-- The code points the server reads in the string `Character.toString(symbols.charAt(pos))` (:119): that of the unit. A surrogate
alone has no UTF-8 encoding; the protobuf library writes a question mark for it. -/
def charAtAsText (u : Nat) : List Int := if highSurrogate u || lowSurrogate u then [63] else [(u : Int)]

/-- The loop of `updateModel`, :109-124, over the code units (the index advances by one, :109), and the update for the end, :127-129.
The replies to the updates are dropped. `none`: the stub throws because of an error status. -/
def learningLoop (env : Env A σ) : Hub A σ → Int → List Nat → Except Fault (Option Unit × Hub A σ)
  | h, state, [] => do
    let u ← updateLMScores env h state [0] 1
    match u.1 with
    | .invalidArgument => .ok (none, u.2)
    | .ok _ => .ok (some (), u.2)
  | h, state, c :: symbols => do
    let u ← updateLMScores env h state [codePointAt c symbols] 1
    match u.1 with
    | .invalidArgument => .ok (none, u.2)
    | .ok _ =>
      let n ← getNextState env u.2 (charAtAsText c) state
      match n.1 with
      | .invalidArgument => .ok (none, n.2)
      | .ok state' => learningLoop env n.2 state' symbols

/-- `getProbs`, :137-155: the pairs of probability and symbol, in the order of the reply. -/
def getProbs (env : Env A σ) (h : Hub A σ) (state : Int) (context : List Int) :
    Except Fault (JavaResult (List (A.D × Str)) × Hub A σ) := do
  let r ← getLMScores env h context state
  match r.1 with
  | .invalidArgument => .ok (.refused, r.2)
  | .ok scores =>
    if scores.symbols.length ≠ scores.probs.length then .ok (.assertion, r.2)
    else .ok (.returns (scores.probs.zip scores.symbols), r.2)

/-- `updateModel`, :104-131. -/
def teach (env : Env A σ) (h : Hub A σ) (symbols : List Nat) : Except Fault (JavaResult (List (A.D × Str)) × Hub A σ) := do
  let l ← learningLoop env h 0 symbols
  match l.1 with
  | none => .ok (.refused, l.2)
  | some _ => getProbs env l.2 0 []

/-- What is logged: the estimates before (:78-81) and after (:90-93). -/
structure Estimates (A : Arith) where
  initial : List (A.D × Str)
  final : List (A.D × Str)

/-- `run`, :63-98, connected to a server, with any text in the place of the "aaaaabbbbbbbbbbbbbbbbbbbbbb" of :84: the estimates
(:75-76), the lesson, whose estimates are dropped (:84), and the estimates once more (:89). Simplified: what has been logged before
something is thrown is not kept. -/
def runLearning (env : Env A σ) (h : Hub A σ) (text : List Nat) : Except Fault (JavaResult (Estimates A) × Hub A σ) := do
  let r0 ← getProbs env h 0 []
  match r0.1 with
  | .refused => .ok (.refused, r0.2)
  | .assertion => .ok (.assertion, r0.2)
  | .outOfBounds _ => .error .ub  -- not by `getProbs`
  | .returns initial =>
    let r1 ← teach env r0.2 text
    match r1.1 with
    | .refused => .ok (.refused, r1.2)
    | .assertion => .ok (.assertion, r1.2)
    | .outOfBounds _ => .error .ub  -- not by `getProbs`
    | .returns _ =>
      let r2 ← getProbs env r1.2 0 []
      match r2.1 with
      | .refused => .ok (.refused, r2.2)
      | .assertion => .ok (.assertion, r2.2)
      | .outOfBounds _ => .error .ub  -- not by `getProbs`
      | .returns final => .ok (.returns ⟨initial, final⟩, r2.2)

/-- "aaaaabbbbbbbbbbbbbbbbbbbbbb", :84. -/
def lessonText : List Nat := List.replicate 5 97 ++ List.replicate 22 98

end Mozolm.System
