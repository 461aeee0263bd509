import Verif.Hub.Model

/-!
# Model of the request handlers of `mozolm/grpc/server_async_impl.cc`

Requests are given by their decoded fields (service.proto); the context string by its code points.
The hub is that of `Verif.Hub.Model`.
-/

namespace Mozolm.Server
open Hub

variable {A : Arith} {σ : Type}

/-- Conversion of the `int64` field `state` to the `int` parameter of the hub's functions
(server_async_impl.cc:43, 53, 319, 325): two's complement truncation to 32 bits. -/
def toInt32 (x : Int) : Int := x.bmod (2 ^ 32)

/-- `grpc::Status` of a handler with its response; the only error code used is INVALID_ARGUMENT. -/
inductive Reply (α : Type) where
  | ok (response : α)
  | invalidArgument

/-- `HandleRequest(GetContextRequest, LMScores)`, server_async_impl.cc:38-48. -/
def getLMScores (env : Env A σ) (h : Hub A σ) (ctx : List Int) (state : Int) :
    Except Fault (Reply (LMScores A.D) × Hub A σ) := do
  let c ← contextState env h ctx (toInt32 state)
  let r ← extractLMScores env c.2 c.1
  match r with
  | (some scores, h) => .ok (.ok scores, h)
  | (none, h) => .ok (.invalidArgument, h)

/-- `HandleRequest(GetContextRequest, NextState)`, server_async_impl.cc:50-57. -/
def getNextState (env : Env A σ) (h : Hub A σ) (ctx : List Int) (state : Int) :
    Except Fault (Reply Int × Hub A σ) := do
  let c ← contextState env h ctx (toInt32 state)
  .ok (.ok c.1, c.2)

/-- Loop of `ManageUpdateLMScores`, server_async_impl.cc:320-324. -/
def walk (env : Env A σ) (h : Hub A σ) (s : Int) : List Int → Except Fault (Int × Hub A σ)
  | [] => .ok (s, h)
  | c :: cs => do
    let r ← nextState env h s c
    walk env r.2 r.1 cs

/-- `ManageUpdateLMScores`, server_async_impl.cc:315-336 (called by :59-63). -/
def updateLMScores (env : Env A σ) (h : Hub A σ) (state : Int) (syms : List Int) (count : Int) :
    Except Fault (Reply (LMScores A.D) × Hub A σ) := do
  let w ← walk env h (toInt32 state) syms                                  -- :319-324
  let u ← updateLMCounts env w.2 (toInt32 state) syms count                -- :325-326
  if u.1 then do
    let r ← extractLMScores env u.2 w.1                                    -- :330
    match r with
    | (some scores, h) => .ok (.ok scores, h)
    | (none, h) => .ok (.invalidArgument, h)                               -- :333-334
  else .ok (.invalidArgument, u.2)                                         -- :327-328

/-- A request to the service (service.proto). -/
inductive Request where
  | getNextState (ctx : List Int) (state : Int)
  | getLMScores (ctx : List Int) (state : Int)
  | updateLMScores (state : Int) (syms : List Int) (count : Int)

/-- The effect of handling one request on the hub. -/
def serve (env : Env A σ) (h : Hub A σ) : Request → Except Fault (Hub A σ)
  | .getNextState ctx s => do let r ← getNextState env h ctx s; .ok r.2
  | .getLMScores ctx s => do let r ← getLMScores env h ctx s; .ok r.2
  | .updateLMScores s cs n => do let r ← updateLMScores env h s cs n; .ok r.2

/-- The effect of a history of requests, handled one at a time. -/
def serveAll (env : Env A σ) (h : Hub A σ) : List Request → Except Fault (Hub A σ)
  | [] => .ok h
  | r :: rs => do let h ← serve env h r; serveAll env h rs

end Mozolm.Server
