import Verif.Word.Spec
import Verif.XR

/-! # Specification vocabulary: probabilities of words

Exact real arithmetic; `costOf p` is the cost of the probability `p`. -/

namespace Mozolm.Word
open XR

/-- The probability of the word with label `l` after the context `q`: that on the arc, else the backoff
probability times that after the shorter context, else 0. -/
inductive WordProb (f : Fst XR) (l : Int) : Nat → ℝ → Prop
  | arc {q d : Nat} {p : ℝ} : 0 ≤ p → NGram.FirstArc f q l (costOf p) d → WordProb f l q p
  | back {q t : Nat} {b p : ℝ} : NGram.NoArc f q l → 0 ≤ b → NGram.IsBackoff f q (costOf b) t →
      WordProb f l t p → WordProb f l q (b * p)
  | none {q : Nat} : NGram.NoArc f q l → (∀ b t, ¬ NGram.IsBackoff f q b t) → WordProb f l q 0

/-- The probability that the text ends after the context `q`. -/
inductive EndProb (f : Fst XR) : Nat → ℝ → Prop
  | final {q : Nat} {st : FState XR} {p : ℝ} : f.states[q]? = some st → 0 < p → st.final = costOf p →
      EndProb f q p
  | back {q t : Nat} {st : FState XR} {b p : ℝ} : f.states[q]? = some st → st.final = pinf → 0 ≤ b →
      NGram.IsBackoff f q (costOf b) t → EndProb f t p → EndProb f q (b * p)
  | none {q : Nat} {st : FState XR} : f.states[q]? = some st → st.final = pinf →
      (∀ b t, ¬ NGram.IsBackoff f q b t) → EndProb f q 0

/-- What the probabilities of the words with prefix `p` add up to, `P l` being that of the word with
label `l`. -/
def mass (t : SymbolTable) (oov : Int) (P : Int → ℝ) (p : Str) : ℝ :=
  ((t.filter fun e => e.1 ≠ 0 ∧ e.1 ≠ oov ∧ p <+: e.2).map fun e => P e.1).sum

end Mozolm.Word
