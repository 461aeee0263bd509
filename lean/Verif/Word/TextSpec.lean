import Verif.Props.WordScores

/-!
# What a word n-gram model says about texts

From the automaton and the vocabulary alone: what follows the letters typed so far, and how probable a sequence of words is.
-/

namespace Mozolm.Word

variable (f : Fst XR) (u : Nat) (t : SymbolTable) (oov : Int)

/-- After the words that lead to `q`, `P l` is the probability of the word with label `l` and `F` that of the end of the
text. -/
structure Outlook (q : Nat) (P : Int → ℝ) (F : ℝ) : Prop where
  words : ∀ l w, IsWord t oov l w → WordProb f l q (P l)
  stop : EndProb f q F

/-- After the words that lead to `q` and then the letters `p`, the string `sym` (a letter, a space or, as the end of the
text, nothing) follows with probability `x`. -/
inductive Follows (q : Nat) (p : Str) : Str → ℝ → Prop
  /-- a letter: the share of the words that it continues to -/
  | letter {P : Int → ℝ} {F : ℝ} {c : Nat} : Outlook f t oov q P F → c ≠ 32 → Starts t oov (p ++ [c]) →
      Follows q p [c] (mass t oov P (p ++ [c]) / weight t oov P F p)
  /-- a space after a word: the text does not end there -/
  | space {P : Int → ℝ} {F e : ℝ} {l : Int} {d : Nat} : Outlook f t oov q P F → IsWord t oov l p →
      AfterWord (A := Arith.xr) f u q l d → EndProb f d e → Follows q p [32] (P l * (1 - e) / weight t oov P F p)
  /-- the end of the text before a word -/
  | stop {P : Int → ℝ} {F : ℝ} : Outlook f t oov q P F → p = [] → 0 < F → Follows q p [] (F / weight t oov P F p)
  /-- the end of the text after a word -/
  | last {P : Int → ℝ} {F e : ℝ} {l : Int} {d : Nat} : Outlook f t oov q P F → IsWord t oov l p →
      AfterWord (A := Arith.xr) f u q l d → EndProb f d e → 0 < e → Follows q p [] (P l * e / weight t oov P F p)

/-- The probability that the words `ws` follow after those that lead to `q`, each with a space behind it: the product of
their probabilities among all words and the end of the text, and of the probabilities that the text does not end after
them. They lead to `q'`. -/
inductive Sentence : Nat → List Str → ℝ → Nat → Prop
  | nil {q : Nat} {P : Int → ℝ} {F : ℝ} : Outlook f t oov q P F → 0 < weight t oov P F [] → Sentence q [] 1 q
  | cons {q d q' : Nat} {P : Int → ℝ} {F e x : ℝ} {l : Int} {w : Str} {ws : List Str} : Outlook f t oov q P F → IsWord t oov l w → 0 < P l →
      AfterWord (A := Arith.xr) f u q l d → EndProb f d e → Sentence d ws x q' →
      Sentence q (w :: ws) (P l / (mass t oov P [] + F) * (1 - e) * x) q'

/-- The words, each with a space behind it. -/
def spaced (ws : List Str) : Str := ws.flatMap fun w => w ++ [32]

end Mozolm.Word
