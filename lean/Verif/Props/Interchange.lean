import Verif.Hub.Mimic
import Verif.Hub.Demo

/-!
# C108 — models that answer alike are interchangeable
-/

namespace Mozolm.Server
open Hub

variable {A : Arith} {σ τ : Type} {R : σ → τ → Prop}

/-- The two servers cannot be told apart by the next request: each of the three gets the same reply, or goes wrong in the same way. -/
structure Indistinct (env : Env A σ) (env' : Env A τ) (h : Hub A σ) (h' : Hub A τ) : Prop where
  scores : ∀ (ctx : List Int) (s : Int), Both (fun x y => x.1 = y.1) (getLMScores env h ctx s) (getLMScores env' h' ctx s)
  next : ∀ (ctx : List Int) (s : Int), Both (fun x y => x.1 = y.1) (getNextState env h ctx s) (getNextState env' h' ctx s)
  update : ∀ (s : Int) (cs : List Int) (n : Int), Both (fun x y => x.1 = y.1) (updateLMScores env h s cs n) (updateLMScores env' h' s cs n)

theorem serve_like {env : Env A σ} {env' : Env A τ} {h : Hub A σ} {h' : Hub A τ} (hm : env.Mimics env'.toLMOps R) (hN : env.orderN = env'.orderN)
    (hV : env.orderV = env'.orderV) (hl : Like R h h') (r : Request) : Both (Like R) (serve env h r) (serve env' h' r) := by
  cases r with
  | getNextState ctx s => exact (next_like hm hN hl ctx s).bind fun a b hab => .ok hab.2
  | getLMScores ctx s => exact (scores_like hm hN hV hl ctx s).bind fun a b hab => .ok hab.2
  | updateLMScores s cs n => exact (updates_like hm hN hV hl s cs n).bind fun a b hab => .ok hab.2

theorem serveAll_like {env : Env A σ} {env' : Env A τ} (hm : env.Mimics env'.toLMOps R) (hN : env.orderN = env'.orderN)
    (hV : env.orderV = env'.orderV) (reqs : List Request) : ∀ {h : Hub A σ} {h' : Hub A τ}, Like R h h' →
    Both (Like R) (serveAll env h reqs) (serveAll env' h' reqs) := by
  induction reqs with
  | nil => intro h h' hl; exact .ok hl
  | cons r rs ih => intro h h' hl; exact (serve_like hm hN hV hl r).bind fun a b hab => ih hab

/-- **C108** A server sees its models only through their answers.  If each of its models is replaced by one that answers alike, the
server starts exactly when it did, and after every history of requests it has gone wrong in the same way or cannot be told
apart from the original by any request. -/
theorem C108_interchange {env : Env A σ} {env' : Env A τ} (hm : env.Mimics env'.toLMOps R) (hN : env.orderN = env'.orderN)
    (hV : env.orderV = env'.orderV) {ms : List σ} {ms' : List τ} (hp : Pointwise R ms ms') (cfg : HubConfig A.C) :
    Both (fun x y => (x = none ∧ y = none) ∨ ∃ h h', x = some h ∧ y = some h' ∧
      ∀ reqs, Both (Indistinct env env') (serveAll env h reqs) (serveAll env' h' reqs))
      (initializeModels env ms cfg) (initializeModels env' ms' cfg) := by
  refine (initialize_like hm hN hp cfg).mono fun x y hxy => hxy.imp id ?_
  rintro ⟨h, h', rfl, rfl, hl⟩
  refine ⟨h, h', rfl, rfl, fun reqs => (serveAll_like hm hN hV reqs hl).mono fun a b hab => ?_⟩
  exact ⟨fun ctx s => (scores_like hm hN hV hab ctx s).mono fun _ _ e => e.1, fun ctx s => (next_like hm hN hab ctx s).mono fun _ _ e => e.1,
    fun s cs n => (updates_like hm hN hV hab s cs n).mono fun _ _ e => e.1⟩

end Mozolm.Server
