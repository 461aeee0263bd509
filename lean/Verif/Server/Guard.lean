import Verif.Hub.Guard
import Verif.Server.HandlerLemmas

/-!
# Request handlers with components that are only asked about their own states

The guard of `Hub/Guard.lean` makes no difference to the request handlers either.
-/

namespace Mozolm.Server
open Hub
variable {A : Arith} {σ : Type} {env : Env A σ} {live : σ → Prop} {ok : σ → Int → Prop} {h : Hub A σ}

theorem walk_guard (hf : env.Fair) (hc : env.toLMOps.ClosedOn live ok) (ho : Own live ok h) (s : Int) (cs : List Int) :
    walk env h s cs = walk (env.guard live ok) h s cs := by
  induction cs generalizing h s with
  | nil => rfl
  | cons c cs ih =>
    obtain ⟨r, h', e, g⟩ := nextState_ok (hf.guard (live := live) (ok := ok)) ho.inv s c
    simp only [walk, ho.nextState hf hc, e, ok_bind]
    exact ih (ho.good hf hc g) _

theorem getNextState_guard (hf : env.Fair) (hc : env.toLMOps.ClosedOn live ok) (ho : Own live ok h) (ctx : List Int) (s : Int) :
    getNextState env h ctx s = getNextState (env.guard live ok) h ctx s := by
  simp only [getNextState, contextState, ho.contextLoop hf hc]

theorem getLMScores_guard (hf : env.Fair) (hc : env.toLMOps.ClosedOn live ok) (ho : Own live ok h) (ctx : List Int) (s : Int) :
    getLMScores env h ctx s = getLMScores (env.guard live ok) h ctx s := by
  simp only [getLMScores, contextState, ho.contextLoop hf hc]
  obtain ⟨r, h', e, g, _⟩ := contextLoop_ok (hf.guard (live := live) (ok := ok)) ho.inv
    (if toInt32 s < 0 then 0 else toInt32 s) ctx
  rw [e]
  simp only [ok_bind]
  rw [(ho.good hf hc g).extract (env := env)]

theorem updateLMScores_guard (hf : env.Fair) (hc : env.toLMOps.ClosedOn live ok) (ho : Own live ok h) (s : Int) (cs : List Int)
    (n : Int) : updateLMScores env h s cs n = updateLMScores (env.guard live ok) h s cs n := by
  obtain ⟨w, h1, e1, g1, _⟩ := walk_ok (hf.guard (live := live) (ok := ok)) ho.inv (toInt32 s) cs
  have ho1 := ho.good hf hc g1
  simp only [updateLMScores, walk_guard hf hc ho, e1, ok_bind, ho1.update hf hc]
  cases e2 : updateLMCounts (env.guard live ok) h1 (toInt32 s) cs n with
  | error f => rfl
  | ok u =>
    obtain ⟨b, h2⟩ := u
    have ho2 := ho1.good hf hc (update_good hf.guard ho1.inv e2)
    simp only [ok_bind]
    rw [ho2.extract (env := env)]

theorem serve_guard (hf : env.Fair) (hc : env.toLMOps.ClosedOn live ok) (ho : Own live ok h) (r : Request) :
    serve env h r = serve (env.guard live ok) h r := by
  cases r with
  | getNextState ctx s => simp only [serve, getNextState_guard hf hc ho]
  | getLMScores ctx s => simp only [serve, getLMScores_guard hf hc ho]
  | updateLMScores s cs n => simp only [serve, updateLMScores_guard hf hc ho]

end Mozolm.Server
