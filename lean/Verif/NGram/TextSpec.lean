import Verif.NGram.Spec
import Verif.XR
import Verif.Basic

/-!
# What a character n-gram model says about texts

From the automaton and the symbol table alone: how much a label is worth at a state, its share among all symbols, and the
state that a text leads to.
-/

namespace Mozolm.NGram
open XR

/-- The label has an arc on the backoff walk from `s`; the first one has weight `w`, leads to `d` and comes after backoff
weights `ws`. -/
def Longest {C : Type} (f : Fst C) (s : Nat) (l : Int) (ws : List C) (w : C) (d : Nat) : Prop :=
  ∃ t, Walk f s ws t ∧ FirstArc f t l w d ∧ Before f s t fun u => NoArc f u l

/-- No state on the backoff walk from `s` has an arc with the label. -/
def Nowhere {C : Type} (f : Fst C) (s : Nat) (l : Int) : Prop := ∀ ws t, Walk f s ws t → NoArc f t l

/-- The costs of the numbers `ps`. -/
def Costs (ws : List XR) (ps : List ℝ) : Prop := Pointwise (fun w p => 0 ≤ p ∧ w = costOf p) ws ps

/-- What a label is worth at a state; label 0 is the end of the text. A label is worth the product of the backoff weights
up to the first state with an arc for it and of the arc's weight (weights as plain numbers, not as costs); the end of the
text the product of the backoff weights up to the first final state and of the final weight. -/
inductive Worth (f : Fst XR) (s : Nat) : Int → ℝ → Prop
  | found {l : Int} {ws : List XR} {w : XR} {d : Nat} {ps : List ℝ} : l ≠ 0 → Longest f s l ws w d → Costs (ws ++ [w]) ps → Worth f s l ps.prod
  | nowhere {l : Int} : l ≠ 0 → Nowhere f s l → Worth f s l 0
  | ends {ws : List XR} {t : Nat} {st : FState XR} {ps : List ℝ} : Walk f s ws t → f.states[t]? = some st → st.final ≠ .pinf →
      (Before f s t fun u => ∀ x, f.states[u]? = some x → x.final = .pinf) → Costs (ws ++ [st.final]) ps → Worth f s 0 ps.prod
  | never : (∀ ws t st, Walk f s ws t → f.states[t]? = some st → st.final = .pinf) → Worth f s 0 0

/-- What the end of the text and the symbols of the table after the first one are worth, in this order. -/
def Weights (m : Model XR) (s : Nat) (ps : List ℝ) : Prop := Pointwise (Worth m.fst s) (0 :: m.symbols.tail.map Prod.fst) ps

/-- The share of a label at a state: what it is worth over what all are worth. -/
def Share (m : Model XR) (s : Nat) (l : Int) (x : ℝ) : Prop := ∃ ps p, Weights m s ps ∧ Worth m.fst s l p ∧ x = p / ps.sum

/-- `<unk>` -/
def unk : Str := [60, 117, 110, 107, 62]

/-- The label of a character: that of its string, of `<unk>` if the string is not in the table. -/
def Reads {C : Type} (encode : Int → Str) (m : Model C) (c l : Int) : Prop :=
  (l, encode c) ∈ m.symbols ∨ (∀ e ∈ m.symbols, e.2 ≠ encode c) ∧ (l, unk) ∈ m.symbols

/-- The state after a character: the one the longest match leads to, the unigram state if there is none. A character that
is not in the table, which has no `<unk>` either, leads where the first epsilon arc leads (C36). -/
inductive Step {C : Type} (encode : Int → Str) (m : Model C) (s : Nat) (c : Int) : Nat → Prop
  | found {l : Int} {ws : List C} {w : C} {d : Nat} : Reads encode m c l → l ≠ 0 → Longest m.fst s l ws w d → Step encode m s c d
  | nowhere {l : Int} {d : Nat} : Reads encode m c l → l ≠ 0 → Nowhere m.fst s l → m.unigram = d → Step encode m s c d
  | unknown {w : C} {d : Nat} : (∀ e ∈ m.symbols, e.2 ≠ encode c) → (∀ e ∈ m.symbols, e.2 ≠ unk) → FirstArc m.fst s 0 w d → Step encode m s c d
  | outside {d : Nat} : (∀ e ∈ m.symbols, e.2 ≠ encode c) → (∀ e ∈ m.symbols, e.2 ≠ unk) → NoArc m.fst s 0 → m.unigram = d →
      Step encode m s c d

/-- The state after a text of characters other than 0. -/
inductive Moves {C : Type} (encode : Int → Str) (m : Model C) : Nat → List Int → Nat → Prop
  | nil {s : Nat} : Moves encode m s [] s
  | cons {s t u : Nat} {c : Int} {cs : List Int} : c ≠ 0 → Step encode m s c t → Moves encode m t cs u → Moves encode m s (c :: cs) u

/-- The probability that the symbols (entries of the table after the first) come next at state `s`: the product of their
shares, each at the state that the characters of the symbols before it lead to. `t` is the state after the last one. -/
inductive Chain (encode : Int → Str) (decode : Str → List Int) (m : Model XR) : Nat → List (Int × Str) → ℝ → Nat → Prop
  | nil {s : Nat} : Chain encode decode m s [] 1 s
  | cons {s t u : Nat} {e : Int × Str} {es : List (Int × Str)} {p q : ℝ} : e ∈ m.symbols.tail → Share m s e.1 p →
      Moves encode m s (decode e.2) t → Chain encode decode m t es q u → Chain encode decode m s (e :: es) (p * q) u

end Mozolm.NGram
