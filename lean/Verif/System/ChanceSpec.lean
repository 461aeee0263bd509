import Verif.System.MemorySpec
import Mathlib.Probability.ProductMeasure
import Mathlib.MeasureTheory.Measure.Lebesgue.Basic

/-!
# How probable a text should be that is generated with a memory of contexts while it is learnt
-/

namespace Mozolm.System
open Mozolm.Ppm (Memory)

/-- A random number, uniform in [0,1). -/
noncomputable def uniform : MeasureTheory.Measure ℝ := MeasureTheory.volume.restrict (Set.Ico 0 1)

instance : MeasureTheory.IsProbabilityMeasure uniform := ⟨by simp [uniform]⟩

/-- Independent random numbers. -/
noncomputable def uniforms : MeasureTheory.Measure (ℕ → ℝ) := MeasureTheory.Measure.infinitePi fun _ => uniform

/-- The probability that `xs` come next after context `c`: each character has the probability that the memory gives it,
and is then learnt once; the longest context known then of those with the character is next. With the memory and the
context afterwards. -/
inductive Drawn (o : Ppm.Options XR) (K V : Nat) (a : Ppm.Alphabet) : Memory → List Int → List Int → ℝ → Memory → List Int → Prop
  | nil {M : Memory} {c : List Int} : Drawn o K V a M c [] 1 M c
  | cons {M M' M'' : Memory} {c c' : List Int} {x : Int} {xs : List Int} {p q : ℝ} : 0 < a.typed x →
      M.Prob (Ppm.effective o.alpha (1/2)) (Ppm.effective o.beta (3/4)) V (a.typed x).toNat c p →
      M' = M.learn K a 1 c [x] → Drawn o K V a M' (M'.longest (a.typed x :: c)) xs q M'' c' →
      Drawn o K V a M c (x :: xs) (p * q) M'' c'

/-- The symbols of a table are characters, and the encodings of characters are told apart by their beginnings, as in
UTF-8. -/
structure Codes (symbols : SymbolTable) (encode : Int → Str) (decode : Str → List Int) : Prop where
  char : ∀ e ∈ symbols, 0 < e.1 → ∃ c : Int, 0 ≤ c ∧ encode c = e.2 ∧ e.2 ≠ [] ∧ decode e.2 = [c]
  start : ∀ e ∈ symbols, ∀ e' ∈ symbols, 0 < e.1 → 0 < e'.1 → e.2 <+: e'.2 → e.2 = e'.2

/-- The `k` most likely symbols after context `c` with their probabilities, most likely first: the end of string is the
empty symbol, the others are those of the table. -/
structure Likeliest (o : Ppm.Options XR) (symbols : SymbolTable) (V : Nat) (M : Memory) (c : List Int) (k : Nat) (l : List (ℝ × Str)) : Prop where
  length : l.length = k
  order : l.Pairwise fun a b => b.1 ≤ a.1
  distinct : (l.map Prod.snd).Nodup
  told : ∀ x ∈ l, ∃ y ≤ V, ([] :: symbols.tail.map Prod.snd : List Str)[y]? = some x.2 ∧
    M.Prob (Ppm.effective o.alpha (1/2)) (Ppm.effective o.beta (3/4)) V y c x.1
  best : ∀ (y : Nat) (sym : Str) (p : ℝ), y ≤ V → ([] :: symbols.tail.map Prod.snd : List Str)[y]? = some sym → sym ∉ l.map Prod.snd →
    M.Prob (Ppm.effective o.alpha (1/2)) (Ppm.effective o.beta (3/4)) V y c p → ∀ x ∈ l, p ≤ x.1

/-- `std::sort` by falling probability, on numbers. -/
def SortsFalling (sort : List (XR × Str) → List (XR × Str)) : Prop :=
  ∀ l : List (XR × Str), (sort l).Perm l ∧ ((∀ x ∈ l, ∃ p : ℝ, x.1 = .fin p) → (sort l).Pairwise fun a b => ¬ XR.lt a.1 b.1)

end Mozolm.System
