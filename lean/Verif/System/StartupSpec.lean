import Verif.System.Startup
import Verif.Props.System
import Verif.Props.WordLoad

/-!
# What the configured files should make of the server
-/

namespace Mozolm.System

variable {A : Arith}

/-- The model that a configuration and the files it names give: the reader of the configured type accepts the files of
the configured names. -/
inductive Loads (fuel : Nat) (d : Disk A.C) : Config.ModelConfig (Storage A.D) A.C → Component A → Prop
  | bigram {s w m} : Bigram.read (d.file s.vocabularyFile) (d.file s.modelFile) = .ok (some m) →
      Loads fuel d ⟨.bigram, s, w⟩ (.bigram m)
  | char {s w m} : NGram.read A (d.ngram s) = .ok (some m) → Loads fuel d ⟨.charNGram, s, w⟩ (.char m)
  | ppm {s w m} : readPpm A d s = .ok (some m) → Loads fuel d ⟨.ppm, s, w⟩ (.ppm m)
  | word {s w m} : Word.read A fuel s.wordCache (d.ngram s) = .ok (some m) → Loads fuel d ⟨.wordNGram, s, w⟩ (.word m)

/-- A model that is refused: the type is unknown, or the reader of that type reports an error. -/
inductive Refuses (fuel : Nat) (d : Disk A.C) : Config.ModelConfig (Storage A.D) A.C → Prop
  | bigram {s w} : Bigram.read (d.file s.vocabularyFile) (d.file s.modelFile) = .ok none → Refuses fuel d ⟨.bigram, s, w⟩
  | char {s w} : NGram.read A (d.ngram s) = .ok none → Refuses fuel d ⟨.charNGram, s, w⟩
  | ppm {s w} : readPpm A d s = .ok none → Refuses fuel d ⟨.ppm, s, w⟩
  | word {s w} : Word.read A fuel s.wordCache (d.ngram s) = .ok none → Refuses fuel d ⟨.wordNGram, s, w⟩
  | other {s w} : Refuses fuel d ⟨.other, s, w⟩

/-- A model whose reader does not return. -/
inductive Kills (fuel : Nat) (d : Disk A.C) : Config.ModelConfig (Storage A.D) A.C → Fault → Prop
  | bigram {s w e} : Bigram.read (d.file s.vocabularyFile) (d.file s.modelFile) = .error e → Kills fuel d ⟨.bigram, s, w⟩ e
  | char {s w e} : NGram.read A (d.ngram s) = .error e → Kills fuel d ⟨.charNGram, s, w⟩ e
  | ppm {s w e} : readPpm A d s = .error e → Kills fuel d ⟨.ppm, s, w⟩ e
  | word {s w e} : Word.read A fuel s.wordCache (d.ngram s) = .error e → Kills fuel d ⟨.wordNGram, s, w⟩ e

/-- The first model of the list that does not load has this property. -/
def FirstBad (fuel : Nat) (d : Disk A.C) (P : Config.ModelConfig (Storage A.D) A.C → Prop)
    (mcs : List (Config.ModelConfig (Storage A.D) A.C)) : Prop :=
  ∃ pre mc post, mcs = pre ++ mc :: post ∧ (∀ x ∈ pre, ∃ m, Loads fuel d x m) ∧ P mc

/-- The vocabulary file of a PPM model is not named, or has lines. -/
def VocabularyLines {C : Type} (d : Disk C) (name : Str) : Prop := name ≠ [] → ∃ ls, d.lines name = some ls ∧ ls ≠ []

/-- An automaton file an n-gram model accepts, with its symbols. -/
structure Automaton (d : Disk A.C) (s : Storage A.D) (f : Fst A.C) (t : SymbolTable) : Prop where
  named : s.modelFile ≠ []
  read : ∃ own, d.fst s.modelFile = some (f, own) ∧
    (own = some t ∨ (own = none ∧ s.vocabularyFile ≠ [] ∧ d.table s.vocabularyFile = some t))
  canonical : d.canonical f = true
  normalized : d.normalized f = true
  closed : NGram.Closed f
  acyclic : NGram.Acyclic f

/-- Files in order: a bigram model's describe a vocabulary and counts; a PPM model has a vocabulary with some character, a
well-formed automaton, or a text from which one is trained; an n-gram model has a sound automaton with its symbols, a word
model with words for symbols. -/
inductive Fine (encode : Int → Str) (d : Disk A.C) : Config.ModelConfig (Storage A.D) A.C → Prop
  | bigram {s w utf8 mat} : Bigram.Describes (d.file s.vocabularyFile) (d.file s.modelFile) utf8 mat →
      (∀ u ∈ utf8, u < 2 ^ 31 - 1) → Fine encode d ⟨.bigram, s, w⟩
  | ppmVocabulary {s w ls Ok} : Ppm.CountLaws A Ok (Ppm.initParameters A s.ppm).beta → s.modelFile = [] → s.vocabularyFile ≠ [] →
      d.lines s.vocabularyFile = some ls → (∃ c ∈ ls.flatten, c ∉ Ppm.epsilonTable.map Prod.snd) → Fine encode d ⟨.ppm, s, w⟩
  | ppmAutomaton {s w f t ord mo V u Ok} : Ppm.CountLaws A Ok (Ppm.initParameters A s.ppm).beta → s.modelFile ≠ [] →
      s.ppm.modelIsFst = true → d.fst s.modelFile = some (f, some t) → Ppm.WF A Ok f ord mo V u → Ppm.Dense t V →
      VocabularyLines d s.vocabularyFile → Fine encode d ⟨.ppm, s, w⟩
  | ppmText {s w ls f t ord mo V u Ok} : Ppm.CountLaws A Ok (Ppm.initParameters A s.ppm).beta → s.modelFile ≠ [] →
      s.ppm.modelIsFst = false → d.lines s.modelFile = some ls →
      d.train (Ppm.initParameters A s.ppm).maxOrder.toNat ls = pure (f, t) → Ppm.WF A Ok f ord mo V u → Ppm.Dense t V →
      VocabularyLines d s.vocabularyFile → Fine encode d ⟨.ppm, s, w⟩
  | char {s w f t} : Automaton d s f t → Fine encode d ⟨.charNGram, s, w⟩
  | word {s w f t} : Automaton d s f t → Word.Vocabulary t (t.findLabel NGram.unknownSymbol) → Word.InTable f t →
      0 ≤ d.maxOrder f → Word.Encodes encode t (t.findLabel NGram.unknownSymbol) → Fine encode d ⟨.wordNGram, s, w⟩

end Mozolm.System
