import Verif.System.WeighedSpec
import Verif.System.CodeSpec
import Verif.NGram.TextSpec
import Verif.Word.TextSpec

/-!
# How many bits a text should cost with a server whose models do not learn

From the replies of a freshly started server to whole texts alone; from the automaton and the table of a character n-gram
model; and from those of a word n-gram model.
-/

namespace Mozolm.System
open Mozolm.Hub Mozolm.Server
variable {σ : Type}

/-- What a symbol costs according to a reply, and whether it counts as unknown (1) or not (0). -/
inductive Prices (r : LMScores XR) (sym : Str) : Nat → ℝ → Prop
  | known {p : ℝ} : Lists r sym p → Prices r sym 0 (charBits p)
  | unknown : sym ∉ r.symbols → Prices r sym 1 (charBits 0)

/-- The symbols after the text: how many are unknown and how many bits they cost, each according to the reply of a fresh
server to all the text before it. `text'` is the whole text. -/
inductive Measured (env : Env Arith.xr σ) (decode : Str → List Int) (h0 : Hub Arith.xr σ) : List Int → List Str → Nat → ℝ → List Int → Prop
  | nil {text : List Int} {r : LMScores XR} : Replies env h0 text r → Proper r → Measured env decode h0 text [] 0 0 text
  | cons {text text' : List Int} {r : LMScores XR} {sym : Str} {syms : List Str} {k k' : Nat} {b b' : ℝ} :
      Replies env h0 text r → Proper r → Prices r sym k b →
      Measured env decode h0 (text ++ decode sym) syms k' b' text' → Measured env decode h0 text (sym :: syms) (k + k') (b + b') text'

/-- The lines of a file, each from the beginning of a text, with the end of the text (the empty string) behind it. -/
inductive MeasuredFile (env : Env Arith.xr σ) (decode : Str → List Int) (h0 : Hub Arith.xr σ) : List (List Str) → Nat → ℝ → Prop
  | nil : MeasuredFile env decode h0 [] 0 0
  | cons {line : List Str} {lines : List (List Str)} {k k' : Nat} {b b' : ℝ} {text' : List Int} :
      Measured env decode h0 [] (line ++ [[]]) k b text' → MeasuredFile env decode h0 lines k' b' →
      MeasuredFile env decode h0 (line :: lines) (k + k') (b + b')

/-- The symbols at a state of a character n-gram model: how many are not in the table (the empty string counts as the end
of the text) and how many bits they cost, each with its share at the state that the characters before it lead to. -/
inductive Metered (encode : Int → Str) (decode : Str → List Int) (m : NGram.Model XR) : Nat → List Str → Nat → ℝ → Nat → Prop
  | nil {s : Nat} : Metered encode decode m s [] 0 0 s
  | known {s t u : Nat} {e : Int × Str} {syms : List Str} {p b : ℝ} {k : Nat} : e ∈ (0, []) :: m.symbols.tail → NGram.Share m s e.1 p →
      NGram.Moves encode m s (decode e.2) t → Metered encode decode m t syms k b u → Metered encode decode m s (e.2 :: syms) k (charBits p + b) u
  | unknown {s t u : Nat} {sym : Str} {syms : List Str} {b : ℝ} {k : Nat} : (∀ e ∈ (0, []) :: m.symbols.tail, e.2 ≠ sym) →
      NGram.Moves encode m s (decode sym) t → Metered encode decode m t syms k b u → Metered encode decode m s (sym :: syms) (1 + k) (charBits 0 + b) u

/-- The lines of a file, each from state 0. -/
inductive MeteredFile (encode : Int → Str) (decode : Str → List Int) (m : NGram.Model XR) : List (List Str) → Nat → ℝ → Prop
  | nil : MeteredFile encode decode m [] 0 0
  | cons {line : List Str} {lines : List (List Str)} {k k' t : Nat} {b b' : ℝ} : Metered encode decode m 0 (line ++ [[]]) k b t →
      MeteredFile encode decode m lines k' b' → MeteredFile encode decode m (line :: lines) (k + k') (b + b')

/-- The symbols after the words that lead to `q` and then the letters `p`, with a word n-gram model: how many cannot follow
and how many bits they cost. The letters and the spaces never leave the vocabulary, and something can always follow. -/
inductive Keyed (decode : Str → List Int) (m : Word.Model XR) (u : Nat) : Nat → Str → List Str → Nat → ℝ → Nat → Str → Prop
  | nil {q : Nat} {p : Str} {P : Int → ℝ} {F : ℝ} : Word.Outlook m.static.base.fst m.static.base.symbols m.static.base.oov q P F →
      0 < Word.weight m.static.base.symbols m.static.base.oov P F p → Keyed decode m u q p [] 0 0 q p
  | known {q q' q'' : Nat} {p p' p'' : Str} {P : Int → ℝ} {F x b : ℝ} {sym : Str} {syms : List Str} {k : Nat} :
      Word.Outlook m.static.base.fst m.static.base.symbols m.static.base.oov q P F →
      0 < Word.weight m.static.base.symbols m.static.base.oov P F p →
      Word.Follows m.static.base.fst u m.static.base.symbols m.static.base.oov q p sym x →
      Word.TypesAll (A := Arith.xr) m.static.base.fst u m.static.base.symbols m.static.base.oov (.word q p) (decode sym) (.word q' p') →
      Keyed decode m u q' p' syms k b q'' p'' → Keyed decode m u q p (sym :: syms) k (charBits x + b) q'' p''
  | unknown {q q' q'' : Nat} {p p' p'' : Str} {P : Int → ℝ} {F b : ℝ} {sym : Str} {syms : List Str} {k : Nat} :
      Word.Outlook m.static.base.fst m.static.base.symbols m.static.base.oov q P F →
      0 < Word.weight m.static.base.symbols m.static.base.oov P F p →
      (∀ x, ¬ Word.Follows m.static.base.fst u m.static.base.symbols m.static.base.oov q p sym x) →
      Word.TypesAll (A := Arith.xr) m.static.base.fst u m.static.base.symbols m.static.base.oov (.word q p) (decode sym) (.word q' p') →
      Keyed decode m u q' p' syms k b q'' p'' → Keyed decode m u q p (sym :: syms) (1 + k) (charBits 0 + b) q'' p''

/-- The lines of a file, each from the start of the model. -/
inductive KeyedFile (decode : Str → List Int) (m : Word.Model XR) (u : Nat) : List (List Str) → Nat → ℝ → Prop
  | nil : KeyedFile decode m u [] 0 0
  | cons {line : List Str} {lines : List (List Str)} {k k' q : Nat} {b b' : ℝ} {p : Str} :
      Keyed decode m u m.static.base.fst.start [] (line ++ [[]]) k b q p →
      KeyedFile decode m u lines k' b' → KeyedFile decode m u (line :: lines) (k + k') (b + b')

end Mozolm.System
