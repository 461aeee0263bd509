import Verif.Server.Service

/-!
# What clients may rely on: one request after the other
-/

namespace Mozolm.Server
open Mozolm.Hub

variable {A : Arith} {σ : Type}

/-- `x` comes before `y` in the list. -/
def Before {α : Type} (l : List α) (x y : α) : Prop := ∃ p m q, l = p ++ x :: (m ++ y :: q)

/-- A call of a client: its name, the request and the answer the server gave. -/
abbrev Turn (D : Type) := Nat × Request × Answer D

/-- One server, one request at a time: from hub `h` the handlers give these answers to these requests, one after the
other, and leave the hub `h'`. -/
inductive Replay (env : Env A σ) : Hub A σ → List (Turn A.D) → Hub A σ → Prop
  | nil {h : Hub A σ} : Replay env h [] h
  | cons {h h1 h' : Hub A σ} {t : Nat} {r : Request} {a : Answer A.D} {rest : List (Turn A.D)} :
      answer env h r = .ok (a, h1) → Replay env h1 rest h' → Replay env h ((t, r, a) :: rest) h'

/-- What the clients see in `log` and the hub `h` are explained by handling these requests one at a time, in this
order, each at a moment between its sending and its answer. -/
structure Explains (env : Env A σ) (h0 : Hub A σ) (order : List (Turn A.D)) (log : List (Event A.D)) (h : Hub A σ) : Prop where
  replay : Replay env h0 order h
  /-- no request is handled twice -/
  once : (order.map (·.1)).Nodup
  /-- only requests that a client sent are handled -/
  sent : ∀ t r a, (t, r, a) ∈ order → .sent t r ∈ log
  /-- an answer a client gets is the one of the order -/
  got : ∀ t a, .got t a ∈ log → ∃ r, (t, r, a) ∈ order
  /-- a request that was answered before another was sent comes before it in the order -/
  realTime : ∀ t r a t' r' a', (t, r, a) ∈ order → (t', r', a') ∈ order → Before log (.got t a) (.sent t' r') →
    Before order (t, r, a) (t', r', a')
  /-- a request that comes before another had been sent when the other was answered -/
  noFuture : ∀ t r a t' r' a', Before order (t, r, a) (t', r', a') → .got t' a' ∈ log → Before log (.sent t r) (.got t' a')

end Mozolm.Server
