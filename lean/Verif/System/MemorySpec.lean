import Verif.Ppm.Calls
import Verif.Ppm.MemoryRun
import Verif.Server.Handlers
import Verif.Hub.Path
import Verif.System.Model

/-!
# What a server with a PPM component that learns should remember and reply

In terms of the memory of contexts of `Ppm/MemorySpec.lean`.
-/

namespace Mozolm.System
open Mozolm.Hub Mozolm.Server
open Mozolm.Ppm (Memory)
open scoped BigOperators

/-- What a request makes of the memory: asking changes nothing; counting at a state of the server is learning after
some known context, after the beginning at state 0; elsewhere it is refused. -/
def Learns (K : Nat) (a : Ppm.Alphabet) (h : Hub Arith.xr (Component Arith.xr)) : Request → Memory → Memory → Prop
  | .getNextState _ _, M, M' => M' = M
  | .getLMScores _ _, M, M' => M' = M
  | .updateLMScores s cs n, M, M' =>
    (¬ (0 ≤ toInt32 s ∧ toInt32 s < h.states.length) ∧ M' = M) ∨
    ∃ c, M.known c ∧ (toInt32 s = 0 → c = [0]) ∧ M' = if 0 < n then M.learn K a n.toNat c cs else M

/-- What a history of requests makes of the memory. -/
inductive Taught (env : Env Arith.xr (Component Arith.xr)) (K : Nat) (a : Ppm.Alphabet) :
    Hub Arith.xr (Component Arith.xr) → Memory → List Request → Hub Arith.xr (Component Arith.xr) → Memory → Prop
  | nil {h : Hub Arith.xr (Component Arith.xr)} {M : Memory} : Taught env K a h M [] h M
  | cons {h h1 h' : Hub Arith.xr (Component Arith.xr)} {M M1 M' : Memory} {r : Request} {rs : List Request} :
      Server.serve env h r = .ok h1 → Learns K a h r M M1 → Taught env K a h1 M1 rs h' M' → Taught env K a h M (r :: rs) h' M'

/-- The use of the model that an update request for a whole string, at state 0, comes to. -/
def lesson : Request → Option Ppm.Call
  | .updateLMScores _ cs n => some (.learn [] cs n)
  | _ => none

/-- The reply lists all symbols, those of `symbols` with the end of string first, with the probabilities that the
memory gives them after context `c`, which are positive and sum to one, and with the memory's normalisation, which is
positive. -/
def Tells (o : Ppm.Options XR) (symbols : SymbolTable) (V : Nat) (M : Memory) (c : List Int) (r : LMScores XR) : Prop :=
  ∃ p : ℕ → ℝ, (∀ y ≤ V, 0 < p y ∧ M.Prob (Ppm.effective o.alpha (1/2)) (Ppm.effective o.beta (3/4)) V y c (p y)) ∧
    ∑ y ∈ Finset.range (V + 1), p y = 1 ∧
    r.symbols = [] :: symbols.tail.map Prod.snd ∧ r.probs = ((List.range (V + 1)).map fun y => .fin (p y)) ∧
    ∃ N : ℝ, r.norm = .fin N ∧ 0 < N ∧ M.Norm (Ppm.effective o.alpha (1/2)) V c N

/-- There is room for the text at state `s`: it is one character, or there are as many free states, or `s` is
further from being used again than the text is long. -/
def Fits (h : Hub Arith.xr (Component Arith.xr)) (s : Nat) (cs : List Int) : Prop :=
  cs.length ≤ 1 ∨ h.states.length + cs.length ≤ h.max ∨ cs.length < h.turnsLeft s

/-- The symbols of `text`, most recent first, before those of `c`. -/
def onto (a : Ppm.Alphabet) (text c : List Int) : List Int := (text.map a.typed).reverse ++ c

/-- The memory after counting a text at a context. -/
noncomputable def counted (K : Nat) (a : Ppm.Alphabet) (M : Memory) (c cs : List Int) (n : Int) : Memory :=
  if 0 < n then M.learn K a n.toNat c cs else M

/-- Asking for the scores after a text: the reply is that of a known context that the text ends with. -/
def AsksWell (env : Env Arith.xr (Component Arith.xr)) (o : Ppm.Options XR) (a : Ppm.Alphabet) (symbols : SymbolTable) (V : Nat)
    (M : Memory) (h : Hub Arith.xr (Component Arith.xr)) : Prop :=
  ∀ text : List Int, (∀ c ∈ text, 0 ≤ c) → ∀ x : Int, -2 ^ 31 ≤ x → x ≤ 0 → ∀ rep h',
    getLMScores env h text x = .ok (rep, h') → h'.selfRecycled = false →
    ∃ (r : LMScores XR) (c : List Int), rep = .ok r ∧ M.known c ∧ c <+: a.past text ∧ (text = [] → c = [0]) ∧ Tells o symbols V M c r

/-- Teaching after a text: with `s` the state for `text`, counting `cs` there is learning `cs` after a known context
that the text ends with; the reply, and the replies to asking from `s` along `cs`, are those of the longest contexts
known afterwards. -/
def TeachesWell (env : Env Arith.xr (Component Arith.xr)) (o : Ppm.Options XR) (K : Nat) (a : Ppm.Alphabet) (symbols : SymbolTable) (V : Nat)
    (M : Memory) (h : Hub Arith.xr (Component Arith.xr)) : Prop :=
  ∀ text : List Int, (∀ c ∈ text, 0 ≤ c) → ∀ x : Int, -2 ^ 31 ≤ x → x ≤ 0 → ∀ (s : Int) h1,
    getNextState env h text x = .ok (.ok s, h1) → ∀ cs : List Int, (∀ c ∈ cs, 0 ≤ c) → Fits h1 s.toNat cs → ∀ n rep h2,
    updateLMScores env h1 s cs n = .ok (rep, h2) → h2.selfRecycled = false →
    ∃ c : List Int, M.known c ∧ c <+: a.past text ∧ (text = [] → c = [0]) ∧
      (∃ r : LMScores XR, rep = .ok r ∧ Tells o symbols V (counted K a M c cs n) ((counted K a M c cs n).longest (onto a cs c)) r) ∧
      ∀ pre post : List Int, cs = pre ++ post → ∃ (r : LMScores XR) (h3 : Hub Arith.xr (Component Arith.xr)),
        getLMScores env h2 pre s = .ok (.ok r, h3) ∧
        Tells o symbols V (counted K a M c cs n) ((counted K a M c cs n).longest (onto a pre c)) r

end Mozolm.System
