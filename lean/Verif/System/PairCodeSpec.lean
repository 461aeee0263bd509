import Verif.System.PairSpec
import Verif.System.CodeSpec

/-!
# How many bits a text should cost that is coded with a table of pairs while it is learnt
-/

namespace Mozolm.System

/-- The share of `c` among all that was seen after `a`. -/
noncomputable def Pairs.share (V : List Int) (T : Pairs) (a c : Int) : ℝ := (T (under V a) c : ℝ) / (T.total V (under V a) : ℝ)

/-- Coding the rest of a line after the character `a`: each character of the vocabulary `V` with its share after the one
before it, and then counting it there; a character that is not in the vocabulary with no probability, without counting.
The end of the string is written as the empty string; if that is how a character of the vocabulary is written, it is
coded as that one, and otherwise as an unknown one. How many characters were not known, how many bits it took, and the
table afterwards. -/
inductive PairsCoded (encode : Int → Str) (V : List Int) : Pairs → Int → List Int → Nat → ℝ → Pairs → Prop
  | stop {T : Pairs} {a e : Int} : e ∈ V → encode e = [] → PairsCoded encode V T a [] 0 (charBits (T.share V a e)) T
  | cut {T : Pairs} {a : Int} : (∀ e ∈ V, encode e ≠ []) → PairsCoded encode V T a [] 1 (charBits 0) T
  | known {T T' : Pairs} {a c : Int} {text : List Int} {k : Nat} {b : ℝ} : c ∈ V →
      PairsCoded encode V (T.add V a [c] 1) c text k b T' → PairsCoded encode V T a (c :: text) k (charBits (T.share V a c) + b) T'
  | unknown {T T' : Pairs} {a c : Int} {text : List Int} {k : Nat} {b : ℝ} : c ∉ V →
      PairsCoded encode V T c text k b T' → PairsCoded encode V T a (c :: text) (k + 1) (charBits 0 + b) T'

/-- Coding a file line by line, each from the beginning of a text. -/
inductive PairsCodedFile (encode : Int → Str) (V : List Int) : Pairs → List (List Int) → Nat → ℝ → Pairs → Prop
  | nil {T : Pairs} : PairsCodedFile encode V T [] 0 0 T
  | cons {T T1 T' : Pairs} {line : List Int} {lines : List (List Int)} {k k' : Nat} {b b' : ℝ} :
      PairsCoded encode V T 0 line k b T1 → PairsCodedFile encode V T1 lines k' b' T' →
      PairsCodedFile encode V T (line :: lines) (k + k') (b + b') T'

end Mozolm.System
