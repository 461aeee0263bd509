import Verif.Server.Handlers
import Verif.Server.LifecycleInv

/-!
# Model of the service as a whole: clients, network, server threads and hub together

The life cycle of `Verif.Server.Lifecycle` (every interleaving of the server's threads and of gRPC) with the handlers
of `Verif.Server.Handlers` run on the one hub at the moment of the handling step, and any number of clients of
`mozolm/grpc/client_async_impl.cc`.

The network is the contract of gRPC, which is not in the repository: a request sent reaches the server at most once, at
any later time or never; an answer reaches the client that asked (each client call waits on a completion queue of its
own, client_async_impl.cc:80-89, 109-121, 156-165, and `WaitAndCheck`, :34-51, takes nothing else), at any later time
or never; a call can fail at any time, by its deadline (`MakeClientContext`, :53-62) or by the network, also when the
server has handled or is going to handle its request.
-/

namespace Mozolm.Server
open Mozolm.Hub

variable {A : Arith} {σ : Type}

/-- The status and response of a call, of the response type of its method (service.proto). -/
inductive Answer (D : Type) where
  | state (r : Reply Int)
  | scores (r : Reply (LMScores D))

/-- Handling one request: `HandleRequest` of its type, server_async_impl.cc:38-63 (called at :128, :171, :214), with the
reply that `responder->Finish` sends. -/
def answer (env : Env A σ) (h : Hub A σ) : Request → Except Fault (Answer A.D × Hub A σ)
  | .getNextState ctx s => do let r ← getNextState env h ctx s; .ok (.state r.1, r.2)
  | .getLMScores ctx s => do let r ← getLMScores env h ctx s; .ok (.scores r.1, r.2)
  | .updateLMScores s cs n => do let r ← updateLMScores env h s cs n; .ok (.scores r.1, r.2)

/-- The method of a request; a requested call (`RequestX`, server_async_impl.cc:113-114, 156-157, 199-200) receives
requests of its own method only. -/
def Request.kind : Request → Kind
  | .getNextState _ _ => .nextState
  | .getLMScores _ _ => .lmScores
  | .updateLMScores _ _ _ => .update

/-- What happens.  `t` names a call of a client, `id` a call object of the server. -/
inductive Event (D : Type) where
  /-- a client makes the call (client_async_impl.cc:81-84, 110-113, 157-160) -/
  | sent (t : Nat) (r : Request)
  /-- gRPC hands the request to a call object of the server -/
  | arrived (t id : Nat)
  /-- the server handles the request -/
  | handled (t : Nat) (r : Request) (a : Answer D)
  /-- the client's call ends with the server's answer (:89-97, 121-129, 165-173) -/
  | got (t : Nat) (a : Answer D)
  /-- the client's call ends with an error that is not the server's -/
  | failed (t : Nat)

/-- The service and what has happened so far, oldest first; no code reads `log`. -/
structure World (A : Arith) (σ : Type) where
  sys : Sys
  hub : Hub A σ
  log : List (Event A.D)

/-- The call of the client has not ended. -/
def Open {D : Type} (log : List (Event D)) (t : Nat) : Prop := (∀ a, .got t a ∉ log) ∧ .failed t ∉ log

/-- One step of the service. -/
inductive WStep (env : Env A σ) : World A σ → World A σ → Prop
  | send (w : World A σ) (t : Nat) (r : Request) : (∀ r', .sent t r' ∉ w.log) →
      WStep env w { w with log := w.log ++ [.sent t r] }
  /-- a request arrives at a requested call of its method: `Step.arrive` -/
  | arrive (w : World A σ) (t : Nat) (r : Request) (c : Server.Call) : .sent t r ∈ w.log → (∀ id, .arrived t id ∉ w.log) →
      w.sys.serverDown = false → c ∈ w.sys.calls → c.phase = .armed → c.kind = r.kind →
      WStep env w { w with sys := { w.sys with calls := setPhase w.sys.calls c.id .readyOk }, log := w.log ++ [.arrived t c.id] }
  /-- a thread of the server handles the request of a call: `ActStep.handle` with the handler's work -/
  | handle (w : World A σ) (n id : Nat) (rest : List Act) (t : Nat) (r : Request) (a : Answer A.D) (hub' : Hub A σ) :
      w.sys.threads[n]? = some (.handle id :: rest) → w.sys.cqShut = false →
      .arrived t id ∈ w.log → .sent t r ∈ w.log → answer env w.hub r = .ok (a, hub') →
      WStep env w
        { sys := { w.sys with calls := setPhase w.sys.calls id .finishing, replied := id :: w.sys.replied,
                              threads := w.sys.threads.set n rest },
          hub := hub', log := w.log ++ [.handled t r a] }
  /-- any other step of the server's threads, of gRPC in the server, or a call of `Shutdown` -/
  | server (w : World A σ) (s : Sys) : Step w.sys s → s.replied = w.sys.replied →
      (∀ id, At s.calls id .readyOk → At w.sys.calls id .readyOk) → WStep env w { w with sys := s }
  /-- the answer reaches the client -/
  | get (w : World A σ) (t : Nat) (r : Request) (a : Answer A.D) : .handled t r a ∈ w.log → Open w.log t →
      WStep env w { w with log := w.log ++ [.got t a] }
  /-- the client's deadline passes, or the network or the server's shutdown fails the call -/
  | fail (w : World A σ) (t : Nat) (r : Request) : .sent t r ∈ w.log → Open w.log t →
      WStep env w { w with log := w.log ++ [.failed t] }

/-- The histories of the service, from a hub with its models loaded (`ServerHelper::Init`, server_helper.cc:69-96) and
the server constructed. -/
inductive WReach (env : Env A σ) (h0 : Hub A σ) : World A σ → Prop
  | start : WReach env h0 ⟨Sys.init, h0, []⟩
  | step {w w' : World A σ} : WReach env h0 w → WStep env w w' → WReach env h0 w'

end Mozolm.Server
