import Verif.System.Model
import Verif.Server.Handlers
import Verif.Hub.NumSpec
import Verif.XR
import Verif.Hub.Spec

/-! # One of the models of a server by itself, and replies -/

namespace Mozolm.System
open Mozolm.Hub Mozolm.Server

/-- The configuration of a server with one model, and as many states. -/
def solo {C : Type} (cfg : HubConfig C) : HubConfig C := { mixture := .none, weights := [], bayesianHistoryLength := 0, maxStates := cfg.maxStates }

variable {A : Arith} {σ : Type}

/-- The server replies with the state id. -/
def Directs (env : Env A σ) (h : Hub A σ) (ctx : List Int) (x k : Int) : Prop := ∃ h', getNextState env h ctx x = .ok (.ok k, h')

/-- The server answers the request with the scores. -/
def Answered (env : Env A σ) (h : Hub A σ) : Request → LMScores A.D → Prop
  | .getLMScores ctx x, r => ∃ h', getLMScores env h ctx x = .ok (.ok r, h')
  | .updateLMScores x cs n, r => ∃ h', updateLMScores env h x cs n = .ok (.ok r, h')
  | .getNextState _ _, _ => False

/-- The server replies to the request with an error. -/
def Refused (env : Env A σ) (h : Hub A σ) : Request → Prop
  | .getLMScores ctx x => ∃ h', getLMScores env h ctx x = .ok (.invalidArgument, h')
  | .updateLMScores x cs n => ∃ h', updateLMScores env h x cs n = .ok (.invalidArgument, h')
  | .getNextState _ _ => False

/-- `res` lists, in increasing byte order, the symbols that some of the replies `rs` list, each with the average of the
probabilities they give it, weighed by the shares (and divided by the average total). -/
structure Mixes (rs : List Share) (res : LMScores XR) : Prop where
  sorted : res.symbols.Pairwise byteLt
  symbols : ∀ sym, sym ∈ res.symbols ↔ ∃ r ∈ rs, ∃ e ∈ r.2, e.1 = sym
  probs : res.probs = res.symbols.map fun sym => XR.fin (Hub.mass rs sym / Hub.total rs)

end Mozolm.System
