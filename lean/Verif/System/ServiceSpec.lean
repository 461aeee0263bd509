import Verif.Server.ServiceSpec
import Verif.System.PairSpec

/-!
# What the clients of a running bigram server should find counted
-/

namespace Mozolm.System
open Mozolm.Hub Mozolm.Server

/-- What a request adds to the table of pairs: a text counted at the beginning of a text, `n` times. -/
def gain (V : List Int) : Request → Pairs
  | .updateLMScores _ cs n => fun a b => if 0 < n then n * ((pairsOf V (under V 0) cs).count (a, b) : Nat) else 0
  | _ => fun _ _ => 0

/-- The table with the gains of some requests; their order does not matter. -/
def Pairs.plus (V : List Int) (T : Pairs) (reqs : List Request) : Pairs := fun a b =>
  T a b + (reqs.map fun r => gain V r a b).sum

/-- Some of the requests the clients sent: each at most once, and every one that was acknowledged. -/
structure Accounted {D : Type} (log : List (Event D)) (done : List (Nat × Request)) : Prop where
  once : (done.map (·.1)).Nodup
  sent : ∀ t r, (t, r) ∈ done → .sent t r ∈ log
  acknowledged : ∀ t r a, .sent t r ∈ log → .got t a ∈ log → (t, r) ∈ done

end Mozolm.System
