import Verif.MatchSpec
import Verif.Server.Handlers

/-! # Two servers side by side, one with rounding: replies -/

namespace Mozolm.Server

/-- both refused, or both answered with answers that match -/
inductive ReplyMatch {α β : Type} (Q : α → β → Prop) : Reply α → Reply β → Prop
  | ok {a b} : Q a b → ReplyMatch Q (.ok a) (.ok b)
  | invalidArgument : ReplyMatch Q .invalidArgument .invalidArgument

/-- the number of symbols a request teaches, with repetitions -/
def Request.taught : Request → Nat
  | .updateLMScores _ syms count => syms.length * count.toNat
  | _ => 0

/-- the number of symbols a history teaches, with repetitions -/
def taught (reqs : List Request) : Nat := (reqs.map Request.taught).sum

/-- The server with rounding, in hub `h`, and the server without, in hub `h'`, answer the next request alike (if, counting from `k`, at most `N` symbols
were taught): they refuse or answer it together, with the same next states and symbols, with probabilities within the factor `exp d` and normalizations
within the factor `exp n` of each other. -/
structure AnswersMatch (φ : Prop) {ε δ : ℝ} (F : Rounding φ ε δ) (d n : ℝ) (N k : Nat) {σ τ : Type} (env : Hub.Env F.arith σ) (env' : Hub.Env Arith.xr τ)
    (h : Hub.Hub F.arith σ) (h' : Hub.Hub Arith.xr τ) : Prop where
  next : ∀ ctx x rep h1, getNextState env h ctx x = .ok (rep, h1) → ∃ rep' h1', getNextState env' h' ctx x = .ok (rep', h1') ∧ ReplyMatch Eq rep rep'
  scores : ∀ ctx x rep h1, getLMScores env h ctx x = .ok (rep, h1) → ∃ rep' h1', getLMScores env' h' ctx x = .ok (rep', h1') ∧
    ReplyMatch (ScoresMatch φ d n) rep rep'
  update : ∀ x cs c rep h1, k + cs.length * c.toNat ≤ N → updateLMScores env h x cs c = .ok (rep, h1) →
    ∃ rep' h1', updateLMScores env' h' x cs c = .ok (rep', h1') ∧ ReplyMatch (ScoresMatch φ d n) rep rep'

end Mozolm.Server
