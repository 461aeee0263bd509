import Verif.Ppm.TrainSpec

/-!
# What a PPM model that learns remembers

A memory of contexts, keyed by the symbols of the context (most recent first; 0 stands for the beginning of a
string in a context and for the end of a string as a symbol that follows), independently of the automaton: which
contexts are known, and how often each symbol was counted after each.
-/

namespace Mozolm.Ppm
open scoped BigOperators

/-- Which contexts are known and how often a symbol was counted after a context. -/
structure Memory where
  known : List Int → Prop
  count : List Int → Int → Nat

/-- The contexts where an observation of `y` after `c` is counted ("update exclusion"): `c` and its shorter
contexts down to the longest one where `y` was counted before. -/
def Memory.Counted (M : Memory) (c : List Int) (y : Int) (d : List Int) : Prop :=
  d <+: c ∧ ∀ e, d <+: e → e <+: c → e ≠ d → M.count e y = 0

/-- One observation of symbol `y` after context `c` in a memory of contexts shorter than `order`: `y` is counted
once more in each of those contexts, and the contexts with `y` added are known from now on. -/
noncomputable def Memory.observe (order : Nat) (M : Memory) (c : List Int) (y : Int) : Memory where
  known d := M.known d ∨ (y ≠ 0 ∧ ∃ e, M.Counted c y e ∧ d = (y :: e).take (order - 1))
  count d z := open Classical in if z = y ∧ M.Counted c y d then M.count d z + 1 else M.count d z

/-- The same observation `n` times. -/
noncomputable def Memory.observeN (order : Nat) (M : Memory) (c : List Int) (y : Int) : Nat → Memory
  | 0 => M
  | n + 1 => (M.observe order c y).observeN order c y n

/-- The longest of the `k` most recent symbols that is a known context. -/
noncomputable def Memory.longestUpTo (M : Memory) (past : List Int) : Nat → List Int
  | 0 => []
  | k + 1 => open Classical in if M.known (past.take (k + 1)) then past.take (k + 1) else M.longestUpTo past k

/-- The longest known context that `past` (most recent symbol first) starts with. -/
noncomputable def Memory.longest (M : Memory) (past : List Int) : List Int := M.longestUpTo past past.length

/-- How code points become symbols. -/
structure Alphabet where
  /-- the symbol observed: 0 for the end of a string, none if there is nothing to learn from the code point -/
  taught : Int → Option Int
  /-- the symbol in contexts: -1 if the character is not known -/
  typed : Int → Int

/-- Learning one code point `n` times after context `c`: the memory and the context afterwards. What cannot be
learnt from starts a new string. -/
noncomputable def Memory.learnOne (order : Nat) (a : Alphabet) (n : Nat) (M : Memory) (c : List Int) (sym : Int) :
    Memory × List Int :=
  match a.taught sym with
  | none => (M, [0])
  | some y => (M.observeN order c y n, (M.observeN order c y n).longest (a.typed sym :: c))

/-- Learning a text `n` times after context `c`. -/
noncomputable def Memory.learn (order : Nat) (a : Alphabet) (n : Nat) : Memory → List Int → List Int → Memory
  | M, _, [] => M
  | M, c, sym :: syms =>
    Memory.learn order a n (M.learnOne order a n c sym).1 (M.learnOne order a n c sym).2 syms

/-- Learning a string of symbols (not code points) after context `c`, up to the first that is not in `0..V`. -/
noncomputable def Memory.learnLabels (order V : Nat) : Memory → List Int → List Int → Memory
  | M, _, [] => M
  | M, c, y :: ys =>
    if 0 ≤ y ∧ y ≤ V then
      Memory.learnLabels order V (M.observe order c y)
        (if y = 0 then [0] else (M.observe order c y).longest (y :: c)) ys
    else M

/-- The probability of symbol `y` (0: end of string) after context `c`: the formula of ppm_as_fst_model.h:35-43
with the counts of the memory. -/
inductive Memory.Prob (M : Memory) (alpha beta : ℝ) (V y : Nat) : List Int → ℝ → Prop
  | nil : M.Prob alpha beta V y [] (M.count [] y / ∑ z ∈ Finset.range (V + 1), (M.count [] (z : Nat) : ℝ))
  | unseen {c : List Int} {p : ℝ} : c ≠ [] → (∀ z : Nat, z ≤ V → M.count c z = 0) →
      M.Prob alpha beta V y c.dropLast p → M.Prob alpha beta V y c p
  | seen {c : List Int} {p : ℝ} : c ≠ [] → (∃ z : Nat, z ≤ V ∧ 0 < M.count c z) →
      M.Prob alpha beta V y c.dropLast p →
      M.Prob alpha beta V y c
        ((max (M.count c y - beta) 0 +
          (((Finset.range (V + 1)).filter fun z => 0 < M.count c (z : Nat)).card * beta + alpha) * p) /
          ((∑ z ∈ Finset.range (V + 1), (M.count c (z : Nat) : ℝ)) + alpha))

/-- The normalisation reported with the probabilities after context `c`: the observations, and `alpha`, at the longest of
its shorter contexts with observations. -/
inductive Memory.Norm (M : Memory) (alpha : ℝ) (V : Nat) : List Int → ℝ → Prop
  | nil : M.Norm alpha V [] ((∑ z ∈ Finset.range (V + 1), (M.count [] (z : Nat) : ℝ)) + alpha)
  | unseen {c : List Int} {n : ℝ} : c ≠ [] → (∀ z : Nat, z ≤ V → M.count c z = 0) → M.Norm alpha V c.dropLast n → M.Norm alpha V c n
  | seen {c : List Int} : c ≠ [] → (∃ z : Nat, z ≤ V ∧ 0 < M.count c z) →
      M.Norm alpha V c ((∑ z ∈ Finset.range (V + 1), (M.count c (z : Nat) : ℝ)) + alpha)

/-- Nothing learnt: a beginning and a count of one for every symbol. -/
def Memory.blank : Memory where
  known c := c = [] ∨ c = [0]
  count c _ := if c = [] then 1 else 0

/-- What is learnt from a training text: nothing is counted after a context as long as the order. -/
noncomputable def Memory.ofText (order : Nat) (ws : List (List Int)) : Memory where
  known := IsContext order ws
  count c y := if c.length < order then trainedCount order ws c y else 0

/-- An automaton that holds the memory, for the symbols up to `V` and contexts shorter than `order`: `ctxs` names
the context of each state; a symbol that was counted leads to the context with it, from the empty context to itself
while the context with it is not known. -/
structure Holds (order V : Nat) (M : Memory) (ctxs : List (List Int)) (f : Fst XR) : Prop where
  nodup : ctxs.Nodup
  contexts : ∀ c, c ∈ ctxs ↔ M.known c
  len : f.states.length = ctxs.length
  start : ctxs[f.start]? = some [0]
  counts : ∀ (s : Nat) (c : List Int), ctxs[s]? = some c → ∀ y : Nat, y ≤ V →
    count Arith.xr f s y = if M.count c y = 0 then none else some (XR.costOf (M.count c y))
  backoff : ∀ (s : Nat) (c : List Int), ctxs[s]? = some c → ∀ b : Nat,
    Ppm.backoff f s = some b ↔ c ≠ [] ∧ ctxs[b]? = some c.dropLast
  target : ∀ (s : Nat) (c : List Int), ctxs[s]? = some c → ∀ y : Int, 0 < y → y ≤ V → 0 < M.count c y →
    ∃ t : Nat, Ppm.target f s y = some t ∧
      (ctxs[t]? = some ((y :: c).take (order - 1)) ∨ (c = [] ∧ t = s ∧ ¬ M.known [y]))

/-- The contexts of a memory belong together: shorter ones are known, the last symbol was counted after the
symbols before it, and nothing comes before the beginning. -/
structure Memory.Grounded (order V : Nat) (M : Memory) : Prop where
  short : ∀ c, M.known c → c.length < order
  closed : ∀ c, M.known c → M.known c.dropLast
  start : M.known [0]
  seen : ∀ z c, M.known (z :: c) → z ≠ 0 → 0 < M.count c z
  labels : ∀ z c, M.known (z :: c) → 0 ≤ z ∧ z ≤ V
  counted : ∀ c y, 0 < M.count c y → c.length < order → M.known c
  all : ∀ y : Nat, y ≤ V → 0 < M.count [] y
  origin : ∀ c, M.known (0 :: c) → c = []

end Mozolm.Ppm
