import Verif.Server.ServiceSpec
import Verif.Server.DirectorySpec

/-!
# An order of the requests, as the clients may see it

Only about what was sent and what was got: neither the server nor the hub occurs here.
-/

namespace Mozolm.Server
open Mozolm.Hub

/-- A list of requests, one after the other, that agrees with what the clients know: no call occurs twice, only calls that
were made, all that were answered; a call answered before another was made comes first; and a call that comes before one
that was answered had been made by then. -/
structure Linear {D : Type} (log : List (Event D)) (order : List (Nat × Request)) : Prop where
  once : (order.map (·.1)).Nodup
  sent : ∀ t r, (t, r) ∈ order → .sent t r ∈ log
  acknowledged : ∀ t r a, .sent t r ∈ log → .got t a ∈ log → (t, r) ∈ order
  realTime : ∀ t r a t' r', (t, r) ∈ order → (t', r') ∈ order → Before log (.got t a) (.sent t' r') →
    Before order (t, r) (t', r')
  noFuture : ∀ t r t' r' a', Before order (t, r) (t', r') → .got t' a' ∈ log → Before log (.sent t r) (.got t' a')

/-- The requests made. -/
def sentRequests {D : Type} (log : List (Event D)) : List Request :=
  log.filterMap fun e => match e with | .sent _ r => some r | _ => none

/-- The texts of the requests made fit into a table of `n` states, whatever states they start at. -/
def RoomFor {D : Type} (log : List (Event D)) (n : Nat) : Prop := 1 + ((sentRequests log).map fun r => 2 * r.text.length).sum ≤ n

end Mozolm.Server
