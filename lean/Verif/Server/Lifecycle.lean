import Verif.Basic

/-!
# Model of the RPC life cycle in `mozolm/grpc/server_async_impl.cc`

A small-step machine.  Threads run the member functions; each step of a thread is one critical
section (of `shutdown_lock_`) or one gRPC/allocation operation, so every interleaving of the threads
is a history of the machine.  The handlers' effect on the hub is modelled in `Verif.Server.Handlers`;
here handling a request only produces a reply.

gRPC itself is not in the repository; its contract is modelled by the environment steps:
* a requested call receives a request only while the server is not shut down, and otherwise completes
  with `ok = false`;
* every completion is delivered by `CompletionQueue::Next` exactly once, in any order, to any thread;
* `Next` returns false only when the queue is shut down and nothing is outstanding;
* `Server::Shutdown` returns only when no call that received a request is still unanswered;
* starting an operation on a queue that is shut down is an error (gRPC aborts).
-/

namespace Mozolm.Server

/-- The three request types, server_async_impl.cc:101-228. -/
inductive Kind where
  | nextState
  | lmScores
  | update
  deriving DecidableEq, Repr

/-- Where a call object (ctx, request, responder) is. -/
inductive Phase where
  /-- `service_.RequestX(...)` done (:113-114), no request yet -/
  | armed
  /-- completed with a request: event `ok = true` not yet delivered -/
  | readyOk
  /-- completed without a request: event `ok = false` not yet delivered -/
  | readyFail
  /-- `ProcessX(ok = true)` running (:117-133), `Finish` not yet called -/
  | processing
  /-- `responder->Finish` called (:132), not completed -/
  | finishing
  /-- `Finish` completed: event not yet delivered -/
  | finished
  /-- `CleanupAfterX` running (:135-142), objects not yet deleted -/
  | closing
  deriving DecidableEq, Repr

/-- A call object. -/
structure Call where
  id : Nat
  kind : Kind
  phase : Phase
  deriving DecidableEq, Repr

/-- The next things a thread does. -/
inductive Act where
  /-- `BuildAndStart` (:230-266) -/
  | build
  /-- `IncrementRpcPending` at the beginning of `RequestNextX` (:82-87, :101-105) -/
  | incr (k : Kind)
  /-- the rest of `RequestNextX` (:106-114) -/
  | arm (k : Kind)
  /-- `HandleRequest` and `responder->Finish` (:127-132) -/
  | handle (id : Nat)
  /-- the three `delete`s of `CleanupAfterX` (:138-140) -/
  | free (id : Nat)
  /-- `DecrementRpcPending` (:89-99) -/
  | decr
  /-- the loop of `DriveCQ` (:65-80) -/
  | drive
  /-- first block of `Shutdown` (:281-295) -/
  | setFlag
  /-- `server->Shutdown()` called (:300) -/
  | downBegin
  /-- `server->Shutdown()` returns (:300) -/
  | downWait
  /-- `rpcs_completed_.WaitForNotification()` (:305) -/
  | wait
  /-- `cq_->Shutdown()` (:308) -/
  | cqShutdown
  deriving DecidableEq, Repr

/-- The server with its threads.  `accepted`, `replied` and `freed` are logs no code reads: ids of
calls whose request was taken up by `ProcessX(ok = true)`, for which `Finish` was called, and whose
objects were deleted. -/
structure Sys where
  started : Bool        -- `server_` is set
  shutdown : Bool       -- `server_shutdown_`
  pending : Int         -- `rpcs_pending_`
  notified : Bool       -- `rpcs_completed_`
  serverDown : Bool
  cqShut : Bool
  next : Nat
  calls : List Call
  threads : List (List Act)
  accepted : List Nat
  replied : List Nat
  freed : List Nat
  deriving Repr

/-- `Run`/`ProcessRequests` thread: server_helper.cc:69-111, server_async_impl.cc:230-277. -/
def runProgram : List Act :=
  [.build, .incr .nextState, .incr .lmScores, .incr .update, .drive]

/-- `Shutdown`, server_async_impl.cc:279-313. -/
def shutdownProgram : List Act :=
  [.setFlag, .downBegin, .downWait, .wait, .cqShutdown, .drive]

/-- The constructed server (:34-37) with the thread that will run it. -/
def Sys.init : Sys :=
  { started := false, shutdown := false, pending := 0, notified := false, serverDown := false,
    cqShut := false, next := 0, calls := [], threads := [runProgram], accepted := [], replied := [],
    freed := [] }

/-- replace the phase of the call with this id -/
def setPhase (calls : List Call) (id : Nat) (p : Phase) : List Call :=
  calls.map fun c => if c.id = id then { c with phase := p } else c

/-- remove the call with this id -/
def removeCall (calls : List Call) (id : Nat) : List Call :=
  calls.filter fun c => c.id ≠ id

/-- no completion is or will be waiting to be delivered -/
def drained (calls : List Call) : Prop :=
  ∀ c ∈ calls, c.phase = .processing ∨ c.phase = .closing

/-- One atomic step of a thread: the system without the thread, its remaining program, and what it
becomes.  Steps that need a condition which does not hold are not possible (the thread waits); a
`delete` of objects that are gone, or an operation on a queue that is shut down, is no step at all:
`Crash` below. -/
inductive ActStep : Sys → List Act → Sys → List Act → Prop
  /-- :235-237: shutdown already requested: `Run` returns the error -/
  | buildLate (s : Sys) (rest) : s.shutdown = true → ActStep s (.build :: rest) s []
  /-- :256-259: the server could not be built -/
  | buildFail (s : Sys) (rest) : s.shutdown = false → ActStep s (.build :: rest) s []
  /-- :255-260; `rpcs_completed_.Notify()` -/
  | buildOk (s : Sys) (rest) : s.shutdown = false →
      ActStep s (.build :: rest) { s with started := true, notified := true } rest
  | incrNo (s : Sys) (k rest) : s.shutdown = true → ActStep s (.incr k :: rest) s rest
  | incrYes (s : Sys) (k rest) : s.shutdown = false →
      ActStep s (.incr k :: rest) { s with pending := s.pending + 1 } (.arm k :: rest)
  | arm (s : Sys) (k rest) : s.cqShut = false →
      ActStep s (.arm k :: rest)
        { s with calls := s.calls ++ [⟨s.next, k, .armed⟩], next := s.next + 1 } rest
  | handle (s : Sys) (id rest) : s.cqShut = false →
      ActStep s (.handle id :: rest)
        { s with calls := setPhase s.calls id .finishing, replied := id :: s.replied } rest
  | free (s : Sys) (id rest) : (∃ c ∈ s.calls, c.id = id) →
      ActStep s (.free id :: rest)
        { s with calls := removeCall s.calls id, freed := id :: s.freed } rest
  | decr (s : Sys) (rest) :
      ActStep s (.decr :: rest)
        { s with pending := s.pending - 1,
                 notified := s.notified || s.pending - 1 == 0 } rest
  /-- `ProcessX(ok = true)`: :126-132 -/
  | driveOk (s : Sys) (rest) (c : Call) : c ∈ s.calls → c.phase = .readyOk →
      ActStep s (.drive :: rest)
        { s with calls := setPhase s.calls c.id .processing, accepted := c.id :: s.accepted }
        (.incr c.kind :: .handle c.id :: .drive :: rest)
  /-- `ProcessX(ok = false)` (:120-125), and the completion of `Finish`: `CleanupAfterX` -/
  | driveClose (s : Sys) (rest) (c : Call) : c ∈ s.calls →
      c.phase = .readyFail ∨ c.phase = .finished →
      ActStep s (.drive :: rest) { s with calls := setPhase s.calls c.id .closing }
        (.free c.id :: .decr :: .drive :: rest)
  | driveEnd (s : Sys) (rest) : s.cqShut = true → drained s.calls →
      ActStep s (.drive :: rest) s rest
  | flagNone (s : Sys) (rest) : s.started = false →
      ActStep s (.setFlag :: rest) { s with shutdown := true } []
  | flag (s : Sys) (rest) : s.started = true →
      ActStep s (.setFlag :: rest) { s with shutdown := true } rest
  | downBegin (s : Sys) (rest) : ActStep s (.downBegin :: rest) { s with serverDown := true } rest
  | downWait (s : Sys) (rest) :
      (∀ c ∈ s.calls, c.phase ≠ .readyOk ∧ c.phase ≠ .processing) →
      ActStep s (.downWait :: rest) s rest
  | wait (s : Sys) (rest) : s.notified = true → ActStep s (.wait :: rest) s rest
  | cqShutdown (s : Sys) (rest) :
      ActStep s (.cqShutdown :: rest) { s with cqShut := true } rest

/-- One step of the system. -/
inductive Step : Sys → Sys → Prop
  | thread (s s' : Sys) (t : Nat) (acts acts' : List Act) : s.threads[t]? = some acts →
      ActStep s acts s' acts' → Step s { s' with threads := s.threads.set t acts' }
  /-- somebody calls `Shutdown` -/
  | callShutdown (s : Sys) : Step s { s with threads := s.threads ++ [shutdownProgram] }
  /-- a client's request arrives -/
  | arrive (s : Sys) (c : Call) : s.serverDown = false → c ∈ s.calls → c.phase = .armed →
      Step s { s with calls := setPhase s.calls c.id .readyOk }
  /-- a requested call is cancelled by the server shutdown -/
  | cancel (s : Sys) (c : Call) : s.serverDown = true → c ∈ s.calls → c.phase = .armed →
      Step s { s with calls := setPhase s.calls c.id .readyFail }
  /-- a `Finish` completes -/
  | finished (s : Sys) (c : Call) : c ∈ s.calls → c.phase = .finishing →
      Step s { s with calls := setPhase s.calls c.id .finished }

/-- The histories of the server. -/
inductive Reachable : Sys → Prop
  | init : Reachable Sys.init
  | step {s s' : Sys} : Reachable s → Step s s' → Reachable s'

/-- A thread is about to delete objects that are already deleted. -/
def DoubleFree (s : Sys) : Prop :=
  ∃ (t id : Nat) (rest : List Act), s.threads[t]? = some (.free id :: rest) ∧
    ¬ ∃ c ∈ s.calls, c.id = id

/-- A thread is about to answer on a completion queue that is shut down. -/
def FinishAfterShutdown (s : Sys) : Prop :=
  ∃ (t id : Nat) (rest : List Act), s.threads[t]? = some (.handle id :: rest) ∧ s.cqShut = true

/-- A thread is about to request a call on a completion queue that is shut down. -/
def RequestAfterShutdown (s : Sys) : Prop :=
  ∃ (t : Nat) (k : Kind) (rest : List Act), s.threads[t]? = some (.arm k :: rest) ∧ s.cqShut = true

/-- everything the threads still have to do -/
def Sys.acts (s : Sys) : List Act := s.threads.flatten

/-- All threads are between events (in `DriveCQ`) or have returned. -/
def Idle (s : Sys) : Prop := ∀ acts ∈ s.threads, ∀ a ∈ acts, a = .drive

end Mozolm.Server
