import Verif.System.PairCodeSpec

/-!
# How probable a text should be that is generated with a table of pairs while it is learnt
-/

namespace Mozolm.System

/-- The probability that `xs` come next after the character `a`: each has its share of what was seen after the one before
it, and is then counted there once. With the table and the last character afterwards. -/
inductive PairsDrawn (V : List Int) : Pairs → Int → List Int → ℝ → Pairs → Int → Prop
  | nil {T : Pairs} {a : Int} : PairsDrawn V T a [] 1 T a
  | cons {T T' : Pairs} {a a' x : Int} {xs : List Int} {q : ℝ} : x ∈ V →
      PairsDrawn V (T.add V a [x] 1) x xs q T' a' → PairsDrawn V T a (x :: xs) (T.share V a x * q) T' a'

/-- How characters are written tells them apart by their beginnings, as in UTF-8; one may be written as nothing. -/
structure Writes (encode : Int → Str) (V : List Int) : Prop where
  apart : ∀ a ∈ V, ∀ b ∈ V, encode a = encode b → a = b
  start : ∀ a ∈ V, ∀ b ∈ V, encode a ≠ [] → encode a <+: encode b → a = b

/-- The probability of ending after the character `a`: that of the character that is written as nothing, if there is one. -/
def Ending (encode : Int → Str) (V : List Int) (T : Pairs) (a : Int) (p : ℝ) : Prop :=
  (∃ e ∈ V, encode e = [] ∧ p = T.share V a e) ∨ (∀ e ∈ V, encode e ≠ []) ∧ p = 0

/-- The `k` most likely characters after `a`, as they are written, with their shares, most likely first. -/
structure PairsLikeliest (encode : Int → Str) (V : List Int) (T : Pairs) (a : Int) (k : Nat) (l : List (ℝ × Str)) : Prop where
  length : l.length = k
  order : l.Pairwise fun x y => y.1 ≤ x.1
  distinct : (l.map Prod.snd).Nodup
  told : ∀ x ∈ l, ∃ c ∈ V, encode c = x.2 ∧ x.1 = T.share V a c
  best : ∀ c ∈ V, encode c ∉ l.map Prod.snd → ∀ x ∈ l, T.share V a c ≤ x.1

end Mozolm.System
