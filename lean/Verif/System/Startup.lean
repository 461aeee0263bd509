import Verif.System.Model
import Verif.Config.Model
import Verif.Ppm.Train

/-!
# Model of the server program from its flags to the running service

`mozolm/grpc/server_async_main.cc:175-189` with `RunServer` (server_helper.cc:130-137), and `MakeModelHub`
(model_factory.cc:62-80) over the `Read` functions of the four model classes, given the files they read.

The file system and the readers of OpenFst and OpenGrm are not in the repository: they are functions of the file
name (`Disk`).  The end of the service (`Shutdown`, signals) is in `Verif/Server/Lifecycle.lean`.
-/

namespace Mozolm.System

variable {A : Arith}

/-- `ModelStorage`, model_storage.proto, with `PpmAsFstOptions` and `NGramWordFstOptions`. -/
structure Storage (D : Type) where
  modelFile : Str
  vocabularyFile : Str
  ppm : Ppm.Options D
  wordCache : Int

/-- `ModelStorage()`: every field has its proto3 default. -/
def Storage.default (A : Arith) : Storage A.D :=
  { modelFile := [], vocabularyFile := []
    ppm := { maxOrder := 0, alpha := A.ofInt 0, beta := A.ofInt 0, static := false, maxCache := 0, modelIsFst := false }
    wordCache := 0 }

/-- The files as the libraries read them, by name. -/
structure Disk (C : Type) where
  /-- the bytes of a file (`std::ifstream`), simple_bigram_char_model.cc:34, :62; `none`: cannot be opened -/
  bytes : Str → Option (List Nat)
  /-- `nisaba::file::ReadLines`, each line split into its characters (`StrSplitByChar`),
  ppm_as_fst_model.cc:290, :385, :483, :498; `none`: error -/
  lines : Str → Option (List (List Str))
  /-- `StdVectorFst::Read` and `InputSymbols()` of the result (`none`: null) -/
  fst : Str → Option (Fst C × Option SymbolTable)
  /-- `SymbolTable::Read` -/
  table : Str → Option SymbolTable
  /-- `sfst::IsCanonical` -/
  canonical : Fst C → Bool
  /-- `sfst::IsNormalized` -/
  normalized : Fst C → Bool
  /-- `sfst::Backoff::MaxOrder` -/
  maxOrder : Fst C → Int
  /-- the text branch of `PpmAsFstModel::Read` (ppm_as_fst_model.cc:470-485) for a maximal order and the lines
  of the text; over exact arithmetic it is `Ppm.trainLines` with a counter -/
  train : Nat → List (List Str) → Ppm.Res (Fst C × SymbolTable)

/-- How simple_bigram_char_model.cc:99-108 opens a file of the storage: not at all if the name is empty. -/
def Disk.file {C : Type} (d : Disk C) (name : Str) : Bigram.FileArg :=
  if name = [] then .absent else .named (d.bytes name)

/-- The vocabulary of a PPM model, ppm_as_fst_model.cc:496-498. -/
def Disk.vocabulary {C : Type} (d : Disk C) (name : Str) : Option (Option (List (List Str))) :=
  if name = [] then none else some (d.lines name)

/-- What `NGramFstModel::Read` is given, ngram_fst_model.cc:47-70. -/
def Disk.ngram {D C : Type} (d : Disk C) (s : Storage D) : NGram.Source C :=
  { noFile := decide (s.modelFile = [])
    fst := (d.fst s.modelFile).map (·.1)
    inSymbols := (d.fst s.modelFile).bind (·.2)
    noVocabulary := decide (s.vocabularyFile = [])
    vocabulary := d.table s.vocabularyFile
    canonical := d.canonical, normalized := d.normalized, maxOrder := d.maxOrder }

/-- `SimpleBigramCharModel::Read`, simple_bigram_char_model.cc:96-141. -/
def loadBigram (A : Arith) (d : Disk A.C) (s : Storage A.D) : Except Fault (Option (Component A)) := do
  let m ← Bigram.read (d.file s.vocabularyFile) (d.file s.modelFile)
  pure (m.map .bigram)

/-- `NGramCharFstModel::Read` is that of its base, ngram_fst_model.cc:47-81. -/
def loadChar (A : Arith) (d : Disk A.C) (s : Storage A.D) : Except Fault (Option (Component A)) := do
  let m ← NGram.read A (d.ngram s)
  pure (m.map .char)

/-- `NGramWordFstModel::Read`, ngram_word_fst_model.cc:234-247. -/
def loadWord (A : Arith) (fuel : Nat) (d : Disk A.C) (s : Storage A.D) : Except Fault (Option (Component A)) := do
  let m ← Word.read A fuel s.wordCache (d.ngram s)
  pure (m.map .word)

/-- `PpmAsFstModel::Read`, ppm_as_fst_model.cc:455-521, from the files. -/
def readPpm (A : Arith) (d : Disk A.C) (s : Storage A.D) : Ppm.Res (Ppm.Model A) :=
  let vocab := d.vocabulary s.vocabularyFile
  if s.modelFile ≠ [] ∧ s.ppm.modelIsFst = true then                        -- :458
    match d.fst s.modelFile with
    | none => Ppm.read A s.ppm (.fstFile none) vocab                        -- :461-464
    | some (_, none) => .fault .ub                                          -- :465: `*fst_->InputSymbols()` of a null pointer
    | some (f, some t) => Ppm.read A s.ppm (.fstFile (some (f, t))) vocab
  else if s.modelFile ≠ [] then                                             -- :479
    match d.lines s.modelFile with
    | none => Ppm.read A s.ppm (.text none) vocab                           -- :482
    | some ls => do
      let r ← d.train (Ppm.initParameters A s.ppm).maxOrder.toNat ls        -- :477-483
      Ppm.read A s.ppm (.text (some r)) vocab
  else Ppm.read A s.ppm .none vocab                                         -- :486-494

/-- The same, as a component. -/
def loadPpm (A : Arith) (d : Disk A.C) (s : Storage A.D) : Except Fault (Option (Component A)) :=
  match readPpm A d s with
  | .error e => .error e
  | .ok m => .ok (m.map .ppm)

/-- `MakeModel`, model_factory.cc:32-60.  `none`: error status. -/
def loadModel (A : Arith) (fuel : Nat) (d : Disk A.C) (c : Config.ModelConfig (Storage A.D) A.C) :
    Except Fault (Option (Component A)) :=
  match c.type with
  | .bigram => loadBigram A d c.storage
  | .charNGram => loadChar A d c.storage
  | .ppm => loadPpm A d c.storage
  | .wordNGram => loadWord A fuel d c.storage
  | .other => .ok none

/-- The loop of `MakeModelHub`, model_factory.cc:71-75: stops at the first failure. -/
def loadModels (A : Arith) (fuel : Nat) (d : Disk A.C) : List (Config.ModelConfig (Storage A.D) A.C) →
    Except Fault (Option (List (Component A)))
  | [] => .ok (some [])
  | c :: cs => do
    match ← loadModel A fuel d c with
    | none => .ok none
    | some m =>
      match ← loadModels A fuel d cs with
      | none => .ok none
      | some ms => .ok (some (m :: ms))

/-- `MakeModelHub`, model_factory.cc:62-80. -/
def makeHub (fuel : Nat) (d : Disk A.C) (env : Hub.Env A (Component A)) (c : Config.ModelHubConfig (Storage A.D) A.C) :
    Except Fault (Option (Hub.Hub A (Component A))) := do
  let ms ← if c.models.length = 0 then loadModels A fuel d [Config.defaultModelConfig A (Storage.default A)]  -- :65-69
    else loadModels A fuel d c.models
  match ms with
  | none => .ok none
  | some ms => Hub.initializeModels env ms (Config.hubConfig c)

/-- What becomes of the server process. -/
inductive Fate (A : Arith) where
  /-- it ends with this exit code -/
  | exits (code : Int)
  /-- it is serving: `RunServer` waits for the worker thread, server_helper.cc:106-108 -/
  | serves (s : Config.Started (Hub.Hub A (Component A)))
  /-- it runs into undefined behaviour, an exception nobody catches, or a loop without end -/
  | dies (f : Fault)

/-- `main`, server_async_main.cc:175-189, up to the point where the service runs.  `bind`: the gRPC server can be
built on the address with the credentials. -/
def serverMain (fuel : Nat) (env : Hub.Env A (Component A)) (d : Disk A.C)
    (host : Config.Host (Config.ServerConfig (Config.ModelHubConfig (Storage A.D) A.C)))
    (bind : Str → Config.ServerCreds → Bool) (flags : Config.ServerFlags) : Fate A :=
  match Config.serverConfigFromFlags host flags with
  | none => .exits 1                                                        -- :179-182
  | some c =>
    match makeHub fuel d env c.hub with
    | .error e => .dies e
    | .ok hub =>
      let r := Config.runServer (fun _ => hub) bind c                       -- :183
      if r.1 = false then .exits 1                                          -- :184-187
      else if r.2.thread then
        match r.2.server with
        | some s => .serves s
        | none => .exits 0
      else .exits 0                                                         -- :188

end Mozolm.System
