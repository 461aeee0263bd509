import Verif.Ppm.Context
import Verif.Ppm.MemorySpec

/-!
# Calls given by the text typed so far

The public functions at the state that `ContextState` gives for a text, and what they do to the memory of contexts.
-/

namespace Mozolm.Ppm
variable {A : Arith}

/-- A use of the model after a text. -/
inductive Call where
  /-- `ExtractLMScores(ContextState(text))` -/
  | ask (text : List Int)
  /-- `SymLMScore(ContextState(text), sym)` -/
  | score (text : List Int) (sym : Int)
  /-- `UpdateLMCounts(ContextState(text), syms, count)` -/
  | learn (text syms : List Int) (count : Int)
  /-- `GetNegLogProbs(labels)` -/
  | logProbs (labels : List Int)

/-- A function at the state for a text. -/
def after {β : Type} (encode : Int → Str) (text : List Int) (k : Int → Model A → Except Fault (β × Model A)) (m : Model A) :
    Except Fault (β × Model A) :=
  match contextState encode text (-1) m with
  | .error e => .error e
  | .ok (s, m') => k s m'

/-- One use. -/
def Call.run (encode : Int → Str) : Call → Model A → Except Fault (Answer A × Model A)
  | .ask text => after encode text fun s => wrap .scores (extractLMScores s)
  | .score text sym => after encode text fun s => wrap .cost (symLMScore encode s sym)
  | .learn text syms count => after encode text fun s => wrap .ok (updateLMCounts encode s syms count)
  | .logProbs labels => wrap .costs (getNegLogProbs labels)

/-- Several, with their answers. -/
def runCalls (encode : Int → Str) : List Call → Model A → Except Fault (List (Answer A) × Model A)
  | [], m => .ok ([], m)
  | c :: cs, m =>
    match c.run encode m with
    | .error e => .error e
    | .ok (a, m') =>
      match runCalls encode cs m' with
      | .error e => .error e
      | .ok (as, m'') => .ok (a :: as, m'')

/-- The symbols of a text, most recent first, with the beginning. -/
def Alphabet.past (a : Alphabet) (text : List Int) : List Int := (text.map a.typed).reverse ++ [0]

/-- What is remembered after one use: asking changes nothing. -/
noncomputable def Memory.use (order V : Nat) (a : Alphabet) (M : Memory) : Call → Memory
  | .ask _ => M
  | .score _ _ => M
  | .learn text syms count => if 0 < count then M.learn order a count.toNat (M.longest (a.past text)) syms else M
  | .logProbs labels => M.learnLabels order V [0] labels

/-- What is remembered after several. -/
noncomputable def Memory.uses (order V : Nat) (a : Alphabet) (M : Memory) (cs : List Call) : Memory :=
  cs.foldl (Memory.use order V a) M

end Mozolm.Ppm
