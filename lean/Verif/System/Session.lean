import Verif.Server.Handlers
import Verif.System.MemorySpec
import Verif.Ppm.Session

/-!
# A client that teaches a text character by character

`mozolm/java/com/google/mozolm/examples/VocabOnlyModelClientExample.java`.
-/

namespace Mozolm.System
open Mozolm.Hub Mozolm.Server
variable {A : Arith} {σ : Type}

/-- What the blocking stub makes of the reply to an update: it throws unless the status is OK. The replies so far are
collected, most recent last. -/
def withReply {α : Type} (r : Reply α) (h : Hub A σ) (k : α → Except Fault (Option (List α) × Hub A σ)) :
    Except Fault (Option (List α) × Hub A σ) :=
  match r with
  | .invalidArgument => .ok (none, h)
  | .ok x => k x

/-- `updateModel` of VocabOnlyModelClientExample.java:103-131 from a state on: for each code point an update request
(:112-117) and a request for the next state (:119-123), and an update request for the end of the string (:127-129),
with `count` in place of the 1 of the example (:115, :128). `none`: the stub throws because of an error status. The
replies to the update requests, which the example drops, are kept; the query at the end (:130) is left out.
Simplified: the text is given by its code points (the example mixes `codePointAt` and `charAt`, which are the same for
the characters of the Basic Multilingual Plane). -/
def updateModel (env : Env A σ) (count : Int) : Hub A σ → Int → List Int → Except Fault (Option (List (LMScores A.D)) × Hub A σ)
  | h, state, [] => do
    let u ← updateLMScores env h state [0] count
    withReply u.1 u.2 fun r => .ok (some [r], u.2)
  | h, state, c :: text => do
    let u ← updateLMScores env h state [c] count
    withReply u.1 u.2 fun r => do
      let n ← getNextState env u.2 [c] state
      match n.1 with
      | .invalidArgument => .ok (none, n.2)
      | .ok state' => do
        let rest ← updateModel env count n.2 state' text
        .ok (rest.1.map (r :: ·), rest.2)

open Mozolm.Ppm (Memory spelled) in
/-- The replies of a session: each tells the longest known context of the text taught so far. -/
def Heard (o : Ppm.Options XR) (K : Nat) (a : Ppm.Alphabet) (symbols : SymbolTable) (V : Nat) (M : Memory) (n : Int) (past text : List Int)
    (rs : List (LMScores XR)) : Prop :=
  rs.length = text.length ∧ ∀ (i : Nat) (r : LMScores XR), rs[i]? = some r →
    Tells o symbols V (M.uses K V a (spelled n past (text.take (i + 1))))
      ((M.uses K V a (spelled n past (text.take (i + 1)))).longest (a.past (past ++ text.take (i + 1)))) r

end Mozolm.System
