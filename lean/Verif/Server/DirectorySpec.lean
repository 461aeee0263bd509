import Verif.Server.Handlers

/-!
# The directory of texts that the state ids of a server should be

A directory lists texts in the order in which they were first visited, starting with the empty one; the place of a
text is its state id.
-/

namespace Mozolm.Hub

/-- The directory after the text `t` with `c` added was visited. -/
def visit (ts : List (List Int)) (t : List Int) (c : Int) : List (List Int) :=
  if t ++ [c] ∈ ts then ts else ts ++ [t ++ [c]]

/-- The directory after the texts on the way from `t` to `t ++ cs` were visited. -/
def visits (ts : List (List Int)) (t : List Int) : List Int → List (List Int)
  | [] => ts
  | c :: cs => visits (visit ts t c) (t ++ [c]) cs

/-- the text of a state id in a request: what is not the id of a state counts as the start -/
def sourceText (ts : List (List Int)) (s : Int) : List Int := if s < 0 then [] else (ts[s.toNat]?).getD []

end Mozolm.Hub

namespace Mozolm.Server
open Hub

/-- The texts that a request visits: those on the way from the text of its state. (Counting goes that way twice, which
makes a difference only if the first time creates a state with the id given.) -/
def visited (ts : List (List Int)) : Request → List (List Int)
  | .getNextState ctx s => visits ts (sourceText ts (toInt32 s)) ctx
  | .getLMScores ctx s => visits ts (sourceText ts (toInt32 s)) ctx
  | .updateLMScores s cs _ =>
    let ts' := visits ts (sourceText ts (toInt32 s)) cs
    visits ts' (sourceText ts' (toInt32 s)) cs

/-- The directory after a history of requests. -/
def directory (reqs : List Request) : List (List Int) := reqs.foldl visited [[]]

/-- The symbols of a request. -/
def Request.text : Request → List Int
  | .getNextState ctx _ => ctx
  | .getLMScores ctx _ => ctx
  | .updateLMScores _ cs _ => cs

/-- The symbols of the requests are characters (code points). -/
def Typed (reqs : List Request) : Prop := ∀ r ∈ reqs, ∀ c ∈ r.text, 0 ≤ c

end Mozolm.Server
