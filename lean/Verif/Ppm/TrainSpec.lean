import Verif.Ppm.NumSpec
import Mathlib.Data.Set.Card

/-!
# What training from text should count

Contexts of a text, how often a symbol follows a context, and the counts with update exclusion; and the
contract of the OpenGrm counter.  A context is written with the most recent symbol first; 0 stands for the
beginning of a line in a context and for the end of a line as a symbol that follows.
-/

namespace Mozolm.Ppm

/-- The positions of a line, each with all that precedes it and the symbol that follows. -/
def positionsFrom (past : List Int) : List Int → List (List Int × Int)
  | [] => [(past, 0)]
  | x :: w => (past, x) :: positionsFrom (x :: past) w

/-- The positions of all lines. -/
def positions (ws : List (List Int)) : List (List Int × Int) := ws.flatMap (positionsFrom [0])

/-- `c` is a context of an n-gram model of the given order: at most `order - 1` symbols that precede some
position. -/
def IsContext (order : Nat) (ws : List (List Int)) (c : List Int) : Prop :=
  c.length < order ∧ ∃ p ∈ positions ws, c <+: p.1

/-- How often `y` follows context `c` in the text. -/
def occurrences (ws : List (List Int)) (c : List Int) (y : Int) : Nat :=
  (positions ws).countP fun p => c.isPrefixOf p.1 && p.2 == y

/-- How often context `c` occurs in the text. -/
def occurrencesAll (ws : List (List Int)) (c : List Int) : Nat :=
  (positions ws).countP fun p => c.isPrefixOf p.1

/-- The contexts one symbol longer than `c`. -/
def Longer (order : Nat) (ws : List (List Int)) (c : List Int) : Set (List Int) :=
  {d | IsContext order ws d ∧ d ≠ [] ∧ d.dropLast = c}

/-- The counts a trained model should start from (ppm_as_fst_model.cc:200-202, "update exclusions"): a
context that is not part of a longer one has the actual counts; any other counts the different longer
contexts after which the symbol was seen; the empty context one more. -/
noncomputable def trainedCount (order : Nat) (ws : List (List Int)) (c : List Int) (y : Int) : Nat :=
  open Classical in
  if c = [] then {d ∈ Longer order ws c | 0 < occurrences ws d y}.ncard + 1
  else if (Longer order ws c).Nonempty then {d ∈ Longer order ws c | 0 < occurrences ws d y}.ncard
  else occurrences ws c y

/-- The contract of `sfst::NGramCounter<Log64Weight>::GetFst` (OpenGrm, not in the repository): the states
are the contexts (`ctxs` names the context of each state), final weights and weights of arcs are minus the
logarithms of the counts, each context but the empty one has a backoff arc to the context without its oldest
symbol, with the total count. -/
structure Counted (order : Nat) (ws : List (List Int)) (ctxs : List (List Int)) (f : Fst XR) : Prop where
  nodup : ctxs.Nodup
  contexts : ∀ c, c ∈ ctxs ↔ IsContext order ws c
  len : f.states.length = ctxs.length
  start : ctxs[f.start]? = some (([0] : List Int).take (order - 1))
  final : ∀ (s : Nat) (c : List Int) (st : FState XR), ctxs[s]? = some c → f.states[s]? = some st → st.final = XR.costOf (occurrences ws c 0)
  arcs_nodup : ∀ (s : Nat) (st : FState XR), f.states[s]? = some st → st.arcs.Nodup
  arcs : ∀ (s : Nat) (c : List Int) (st : FState XR), ctxs[s]? = some c → f.states[s]? = some st → ∀ a : Arc XR, a ∈ st.arcs ↔
    (a.label = 0 ∧ c ≠ [] ∧ ctxs[a.next]? = some c.dropLast ∧ a.weight = XR.costOf (occurrencesAll ws c)) ∨
    (0 < a.label ∧ 0 < occurrences ws c a.label ∧
      ctxs[a.next]? = some ((a.label :: c).take (order - 1)) ∧ a.weight = XR.costOf (occurrences ws c a.label))

/-- The contract of the counter for all orders and texts (with no empty lines, labels positive). -/
def CounterOk (counter : Nat → List (List Int) → Fst XR) : Prop :=
  ∀ (order : Nat) (ws : List (List Int)), 1 ≤ order → ws ≠ [] → (∀ w ∈ ws, w ≠ [] ∧ ∀ x ∈ w, 0 < x) →
    ∃ ctxs, Counted order ws ctxs (counter order ws)

/-- An automaton that has exactly the contexts of the text and the counts a trained model should start
from, for the symbols up to `V`: `ctxs` names the context of each state; a symbol that follows leads to the
context with it, a symbol that is not in the text from the empty context to itself. -/
structure Trained (order : Nat) (ws : List (List Int)) (ctxs : List (List Int)) (V : Nat) (f : Fst XR) : Prop where
  nodup : ctxs.Nodup
  contexts : ∀ c, c ∈ ctxs ↔ IsContext order ws c
  len : f.states.length = ctxs.length
  start : ctxs[f.start]? = some (([0] : List Int).take (order - 1))
  counts : ∀ (s : Nat) (c : List Int), ctxs[s]? = some c → ∀ y : Nat, y ≤ V →
    count Arith.xr f s y =
      if trainedCount order ws c y = 0 then none else some (XR.costOf (trainedCount order ws c y))
  backoff : ∀ (s : Nat) (c : List Int), ctxs[s]? = some c → ∀ b : Nat,
    Ppm.backoff f s = some b ↔ c ≠ [] ∧ ctxs[b]? = some c.dropLast
  target : ∀ (s : Nat) (c : List Int), ctxs[s]? = some c → ∀ y : Int, 0 < y → 0 < occurrences ws c y →
    ∃ t : Nat, Ppm.target f s y = some t ∧ ctxs[t]? = some ((y :: c).take (order - 1))
  other : ∀ (s : Nat) (c : List Int), ctxs[s]? = some c → ∀ y : Int, 0 < y → y ≤ V → occurrences ws c y = 0 →
    Ppm.target f s y = if c = [] then some s else none

/-- `d` is the longest context of the text that `past` (most recent symbol first) starts with. -/
def LongestContext (order : Nat) (ws : List (List Int)) (past d : List Int) : Prop :=
  IsContext order ws d ∧ d <+: past ∧ ∀ e, IsContext order ws e → e <+: past → e.length ≤ d.length

/-- The probability of symbol `y` (0: end of string) after context `c`, from the text alone: the formula of
ppm_as_fst_model.h:35-43 with the counts a trained model should start from. -/
inductive TextProb (order : Nat) (ws : List (List Int)) (alpha beta : ℝ) (V y : Nat) : List Int → ℝ → Prop
  | nil : TextProb order ws alpha beta V y []
      (trainedCount order ws [] y / ∑ z ∈ Finset.range (V + 1), (trainedCount order ws [] (z : Nat) : ℝ))
  | cons {c : List Int} {p : ℝ} : c ≠ [] → TextProb order ws alpha beta V y c.dropLast p →
      TextProb order ws alpha beta V y c
        ((max (trainedCount order ws c y - beta) 0 +
          (((Finset.range (V + 1)).filter fun z => 0 < trainedCount order ws c (z : Nat)).card * beta + alpha) * p) /
          ((∑ z ∈ Finset.range (V + 1), (trainedCount order ws c (z : Nat) : ℝ)) + alpha))

end Mozolm.Ppm
