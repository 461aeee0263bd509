import Verif.Hub.Model
import Verif.Bigram.Model
import Verif.Ppm.Model
import Verif.NGram.Model
import Verif.Word.Model

/-!
# The hub over the component models of the repository

The hub (`Verif/Hub/Model.lean`) is generic in its components.  Here the components are the four language
models: `Component` is what the `std::unique_ptr<LanguageModel>` in `language_models_`
(language_model_hub.h:204) can point to (model_factory.cc:45-66), and `ops` are the virtual calls on it.
A component whose call had undefined behaviour, threw, or did not end becomes `crashed`.
-/

namespace Mozolm.System

variable {A : Arith}

/-- A component model. -/
inductive Component (A : Arith)
  | bigram (m : Bigram.Model)
  | ppm (m : Ppm.Model A)
  | char (m : NGram.Model A.C)
  | word (m : Word.Model A.C)
  /-- a bigram model one of whose counts left the range of `int64_t` -/
  | overflow
  /-- a model whose call had undefined behaviour for another reason, threw, or did not end -/
  | crashed (f : Fault)

/-- The result of a call, with the component afterwards; `dflt` is returned by a crashed component. -/
def settle {α β : Type} (dflt : β) (r : Except Fault α) (k : α → β × Component A) : β × Component A :=
  match r with
  | .ok a => k a
  | .error f => (dflt, .crashed f)

/-- No count of the model can leave the range of `int64_t` by this update. -/
def bigramRoom (m : Bigram.Model) (cs : List Int) (n : Int) : Bool :=
  m.counts.all fun row => row.all fun c => decide (c + n * cs.length ≤ Bigram.maxInt64)

/-- `start_state()`: 0 (language_model.h:52, :81) unless `Read` sets it (ppm_as_fst_model.cc:519,
ngram_word_fst_model.cc:243). -/
def start : Component A → Int
  | .bigram _ => 0
  | .ppm m => m.core.fst.start
  | .char m => NGram.startState m
  | .word m => Word.startState m
  | .overflow => 0
  | .crashed _ => 0

/-- `NextState` (language_model.h:43). `encode` is `nisaba::utf8::EncodeUnicodeChar`; `fuel` the
number of steps granted to the loops along backoff arcs of the n-gram models. -/
def next (encode : Int → Str) (fuel : Nat) : Component A → Int → Int → Int × Component A
  | .bigram m, s, c => (Bigram.nextState m s c, .bigram m)
  | .ppm m, s, c => settle 0 (Ppm.nextState encode s c m) fun r => (r.1, .ppm r.2)
  | .char m, s, c => settle 0 (NGram.nextState encode fuel m s c) fun r => (r, .char m)
  | .word m, s, c => settle 0 (Word.nextState A encode fuel m.static m.imp s c) fun r =>
      (r.1, .word { m with imp := r.2 })
  | .overflow, _, _ => (0, .overflow)
  | .crashed f, _, _ => (0, .crashed f)

/-- `ExtractLMScores` (language_model.h:55) into an empty response; `none`: false. -/
def extract (encode : Int → Str) (fuel : Nat) : Component A → Int → Option (LMScores A.D) × Component A
  | .bigram m, s => settle none (Bigram.extractLMScores A encode m s) fun r => (some r, .bigram m)
  | .ppm m, s => settle none (Ppm.extractLMScores s m) fun r => (r.1, .ppm r.2)
  | .char m, s => settle none (NGram.extractLMScores fuel m s) fun r => (some r, .char m)
  | .word m, s => settle none (Word.extractLMScores A fuel m s (Word.noScores A)) fun r =>
      (if r.1 then some r.2.1 else none, .word { m with cache := r.2.2 })
  | .overflow, _ => (none, .overflow)
  | .crashed f, _ => (none, .crashed f)

/-- `SymLMScore` (language_model.h:67). -/
def symScore (encode : Int → Str) (fuel : Nat) : Component A → Int → Int → A.C × Component A
  | .bigram m, s, c => settle A.one (Bigram.symLMScore A m s c) fun r => (r, .bigram m)
  | .ppm m, s, c => settle A.one (Ppm.symLMScore encode s c m) fun r => (r.1, .ppm r.2)
  | .char m, s, c => settle A.one (NGram.symLMScore encode fuel m s c) fun r => (r, .char m)
  | .word m, s, c => settle A.one (Word.symLMScore A fuel m s c) fun r =>
      (r.1, .word { m with cache := r.2 })
  | .overflow, _, _ => (A.one, .overflow)
  | .crashed f, _, _ => (A.one, .crashed f)

/-- `UpdateLMCounts` (language_model.h:72); that of the n-gram models changes nothing
(ngram_fst_model.cc:83-88).  A fault in the bigram model is put down to overflow only if a count can
overflow. -/
def update (encode : Int → Str) : Component A → Int → List Int → Int → Bool × Component A
  | .bigram m, s, cs, n =>
    match Bigram.updateLMCounts m s cs n with
    | .ok r => (r.1, .bigram r.2)
    | .error f => (true, if bigramRoom m cs n then .crashed f else .overflow)
  | .ppm m, s, cs, n => settle false (Ppm.updateLMCounts encode s cs n m) fun r => (r.1, .ppm r.2)
  | .char m, s, cs, n => ((NGram.updateLMCounts m s cs n).1, .char (NGram.updateLMCounts m s cs n).2)
  | .word m, s, cs, n => ((NGram.updateLMCounts m.static.base s cs n).1, .word m)
  | .overflow, _, _, _ => (true, .overflow)
  | .crashed f, _, _, _ => (false, .crashed f)

/-- The virtual functions of the components. -/
def ops (A : Arith) (encode : Int → Str) (fuel : Nat) : Hub.LMOps A (Component A) where
  start := start
  next := next encode fuel
  extract := extract encode fuel
  symScore := symScore encode fuel
  update := update encode

/-- The hub over these components, with any iteration order of its hash maps. -/
def env (A : Arith) (encode : Int → Str) (fuel : Nat) (orderN : List (Int × Nat) → List (Int × Nat))
    (orderV : List (Str × A.C) → List (Str × A.C)) : Hub.Env A (Component A) :=
  { toLMOps := ops A encode fuel, orderN, orderV }

end Mozolm.System
