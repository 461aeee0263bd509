import Verif.System.ChanceSpec
import Verif.Server.Handlers

/-!
# How probable a text should be that is generated with a server, from its replies alone

Nothing about models or state tables: what the server replies to the requests of one client.
-/

namespace Mozolm.System
open Mozolm.Hub Mozolm.Server
variable {σ : Type}

/-- `sym` has probability `p` in the reply. -/
def Lists (r : LMScores XR) (sym : Str) (p : ℝ) : Prop := (XR.fin p, sym) ∈ r.probs.zip r.symbols

/-- The probability of `sym` in the reply, nothing if it is not there. -/
def Gives (r : LMScores XR) (sym : Str) (p : ℝ) : Prop := Lists r sym p ∨ sym ∉ r.symbols ∧ p = 0

/-- A reply with a distribution over different symbols, of which none that is not empty begins another one. -/
structure Proper (r : LMScores XR) : Prop where
  distribution : ∃ ps : List ℝ, r.probs = ps.map XR.fin ∧ ps.length = r.symbols.length ∧ (∀ p ∈ ps, 0 ≤ p) ∧ ps.sum = 1
  distinct : r.symbols.Nodup
  apart : ∀ a ∈ r.symbols, ∀ b ∈ r.symbols, a ≠ [] → a <+: b → a = b

/-- The probability that the symbols come next, according to the replies: each has the probability that the last reply
gives it; then it is counted at the state before it, which gives the next reply, and the state after it is asked for. `h`,
`s` and `r` are the server, the client's state and the last reply before, `h'`, `s'` and `r'` those afterwards. -/
inductive Offered (env : Env Arith.xr σ) (decode : Str → List Int) :
    Hub Arith.xr σ → Int → LMScores XR → List Str → ℝ → Hub Arith.xr σ → Int → LMScores XR → Prop
  | nil {h : Hub Arith.xr σ} {s : Int} {r : LMScores XR} : Proper r → Offered env decode h s r [] 1 h s r
  | cons {h h1 h2 h' : Hub Arith.xr σ} {s s1 s' : Int} {r r1 r' : LMScores XR} {sym : Str} {syms : List Str} {p q : ℝ} :
      Proper r → sym ≠ [] → Lists r sym p →
      updateLMScores env h (toInt32 s) (decode sym) 1 = .ok (.ok r1, h1) →
      getNextState env h1 (decode sym) (toInt32 s) = .ok (.ok s1, h2) →
      Offered env decode h2 s1 r1 syms q h' s' r' → Offered env decode h s r (sym :: syms) (p * q) h' s' r'

/-- The server's answers to the two requests that generation begins with: the state of the given text, and the reply
there, which must not say that there are no scores. -/
structure Opened (env : Env Arith.xr σ) (decode : Str → List Int) (h : Hub Arith.xr σ) (ctx : Str)
    (s : Int) (r : LMScores XR) (h2 : Hub Arith.xr σ) : Prop where
  answers : ∃ h1, getNextState env h (decode ctx) (-1) = .ok (.ok s, h1) ∧ getLMScores env h1 (decode []) (toInt32 s) = .ok (.ok r, h2)
  scores : ¬ XR.le r.norm (.fin 0)

/-- The `k` most likely symbols of a reply, with their probabilities, most likely first. -/
structure Best (r : LMScores XR) (k : Nat) (l : List (ℝ × Str)) : Prop where
  length : l.length = k
  order : l.Pairwise fun a b => b.1 ≤ a.1
  distinct : (l.map Prod.snd).Nodup
  listed : ∀ x ∈ l, Lists r x.2 x.1
  best : ∀ (sym : Str) (p : ℝ), Lists r sym p → sym ∉ l.map Prod.snd → ∀ x ∈ l, p ≤ x.1

end Mozolm.System
