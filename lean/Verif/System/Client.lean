import Verif.Client.Model
import Verif.Server.Handlers

/-!
# The client in front of the server

The other side of `Client/Model.lean` is the server of `Server/Handlers.lean`, one client at a time.
-/

namespace Mozolm.System
open Mozolm.Hub Mozolm.Server
variable {A : Arith} {σ : Type}

/-- What the client gets of a handler: the response if the status is OK (client_async_impl.cc:90-92, :122-124,
:166); a server that breaks down gives none. -/
def replied {α : Type} (h : Hub A σ) : Except Fault (Reply α × Hub A σ) → Option α × Hub A σ
  | .ok (.ok x, h') => (some x, h')
  | .ok (.invalidArgument, h') => (none, h')
  | .error _ => (none, h)

/-- The service with the handlers of server_async_impl.cc:38-63 behind it. The context string of a request is decoded by
the hub (language_model_hub.cc:207-209). The random numbers are given in advance, `u n` is the one drawn next but `n`.
Simplified: the transport is perfect and nothing else is served in between. -/
def service (env : Env A σ) (decode : Str → List Int) : Client.Service A.D (Hub A σ × (Nat → A.D)) where
  lmScores w ctx s :=
    let r := replied w.1 (getLMScores env w.1 (decode ctx) s)
    (r.1, r.2, w.2)
  nextState w ctx s :=
    let r := replied w.1 (getNextState env w.1 (decode ctx) s)
    (r.1, r.2, w.2)
  update w s syms n :=
    let r := replied w.1 (updateLMScores env w.1 s syms n)
    (r.1, r.2, w.2)
  uniform w := (w.2 0, w.1, fun n => w.2 (n + 1))

end Mozolm.System
