import Verif.Fst

/-!
# Model of `mozolm/models/ngram_fst_model.cc` and `mozolm/models/ngram_char_fst_model.cc`

Loops along the backoff chain take fuel; the theorems show that enough fuel always exists when backoff
is acyclic.  `sfst::IsCanonical`, `sfst::IsNormalized` and `sfst::Backoff::MaxOrder` (OpenGrm, not in
the repository) are parameters of `Read`.
-/

namespace Mozolm.NGram

variable {A : Arith}

/-- `NGramFstModel` members, ngram_fst_model.h:74-84, with the symbol table of the automaton. -/
structure Model (C : Type) where
  fst : Fst C
  symbols : SymbolTable
  oov : Int
  unigram : Int
  hiOrder : Int

/-- `GetBackoff`, ngram_fst_model.cc:110-128: target and cost of the first epsilon arc that is not a
self-loop; `kNoStateId` with cost One otherwise. -/
def getBackoff (A : Arith) (f : Fst A.C) (s : Int) : Except Fault (Int × A.C) :=
  if s = -1 then .ok (-1, A.one)                                            -- :112-115
  else match f.state? s with
    | none => .error .ub                                                    -- :117
    | some st =>
      match st.arcs.find? (fun a => a.label == 0 && (a.next : Int) != s) with -- :118-121
      | some a => .ok (a.next, a.weight)                                    -- :122-123
      | none => .ok (-1, A.one)                                             -- :126-127

/-- What `Read` is given: file contents and the library's checks. -/
structure Source (C : Type) where
  /-- `storage.model_file()` is empty -/
  noFile : Bool
  /-- `StdVectorFst::Read` -/
  fst : Option (Fst C)
  /-- `fst->InputSymbols()` -/
  inSymbols : Option SymbolTable
  /-- `storage.vocabulary_file()` is empty -/
  noVocabulary : Bool
  /-- `SymbolTable::Read(storage.vocabulary_file())` -/
  vocabulary : Option SymbolTable
  /-- `sfst::IsCanonical` -/
  canonical : Fst C → Bool
  /-- `sfst::IsNormalized` -/
  normalized : Fst C → Bool
  /-- `sfst::Backoff::MaxOrder` -/
  maxOrder : Fst C → Int

/-- "<unk>", ngram_fst_model.cc:40 -/
def unknownSymbol : Str := [60, 117, 110, 107, 62]

/-- The symbol table used, ngram_fst_model.cc:58-70: that of the automaton, else the vocabulary file. -/
def symbolTable {C : Type} (src : Source C) : Option SymbolTable :=
  match src.inSymbols with
  | some t => some t
  | none => if src.noVocabulary then none else src.vocabulary

/-- `NGramFstModel::Read`, ngram_fst_model.cc:47-81 and `CheckModel` :100-108. `none`: error status.
`sfst::Backoff::GetBackoffState` is taken to agree with `GetBackoff`. -/
def read (A : Arith) (src : Source A.C) : Except Fault (Option (Model A.C)) :=
  if src.noFile then .ok none                                               -- :48-50
  else match src.fst with
    | none => .ok none                                                      -- :54-57
    | some f =>
      match symbolTable src with
      | none => .ok none
      | some t => do
        let bo ← getBackoff A f f.start                                     -- :76
        let unigram := if bo.1 = -1 then (f.start : Int) else bo.1          -- :77-79
        let m : Model A.C :=
          { fst := f, symbols := t, oov := t.findLabel unknownSymbol, unigram, hiOrder := src.maxOrder f }
        if !src.canonical f then .ok none                                   -- :101-103
        else if !src.normalized f then .ok none                             -- :104-106
        else .ok (some m)

/-- `CheckCurrentState`, ngram_fst_model.cc:90-98. -/
def checkCurrentState (m : Model A.C) (s : Int) : Int :=
  if s = -1 then (if m.unigram = -1 then (m.fst.start : Int) else m.unigram) else s

/-- `NextModelState`, ngram_fst_model.cc:130-145. -/
def nextModelState (A : Arith) (f : Fst A.C) (unigram label : Int) : Nat → Int → Except Fault Int
  | 0, _ => .error .fuel
  | n + 1, s =>
    if s = -1 then .ok unigram                                              -- :132, :134
    else match f.state? s with
      | none => .error .ub                                                  -- :135
      | some st =>
        match Fst.matchFirst A.one st s label with
        | some a => .ok a.2                                                 -- :136-139
        | none => do
          let bo ← getBackoff A f s                                         -- :141
          nextModelState A f unigram label n bo.1

/-- `SymLabel`, ngram_char_fst_model.cc:34-42; `encode` is `nisaba::utf8::EncodeUnicodeChar`. -/
def symLabel (encode : Int → Str) (m : Model A.C) (sym : Int) : Int :=
  if sym = 0 then sym
  else
    let label := m.symbols.findLabel (encode sym)
    if label = -1 then m.oov else label

/-- `NGramCharFstModel::NextState`, ngram_char_fst_model.cc:44-47. -/
def nextState (encode : Int → Str) (fuel : Nat) (m : Model A.C) (s sym : Int) : Except Fault Int :=
  nextModelState A m.fst m.unigram (symLabel encode m sym) fuel (checkCurrentState m s)

/-- Loop of `FinalCostInState`, ngram_char_fst_model.cc:107-117, entered with a valid state whose final
weight is Zero. -/
def finalLoop (A : Arith) (f : Fst A.C) : Nat → Int → A.C → Except Fault A.C
  | 0, _, _ => .error .fuel
  | n + 1, s, boCost => do
    let bo ← getBackoff A f s                                               -- :109
    let boCost := A.times boCost bo.2                                       -- :110
    if bo.1 < 0 then .ok A.inf                                              -- :107
    else match f.state? bo.1 with
      | none => .error .ub
      | some st =>
        if A.isInf st.final then finalLoop A f n bo.1 boCost                -- :107, :112
        else .ok (A.times st.final boCost)                                  -- :113-115

/-- `FinalCostInState`, ngram_char_fst_model.cc:102-119. -/
def finalCostInState (A : Arith) (f : Fst A.C) (fuel : Nat) (s : Int) : Except Fault A.C :=
  match f.state? s with
  | none => .error .ub                                                      -- :105
  | some st => if A.isInf st.final then finalLoop A f fuel s A.one else .ok st.final

/-- Loop of `LabelCostInState`, ngram_char_fst_model.cc:87-98. -/
def labelLoop (A : Arith) (f : Fst A.C) (label : Int) : Nat → Int → A.C → Except Fault A.C
  | 0, _, _ => .error .fuel
  | n + 1, s, cost =>
    if s < 0 then .ok A.inf                                                 -- :99
    else match f.state? s with
      | none => .error .ub                                                  -- :88
      | some st =>
        match Fst.matchFirst A.one st s label with
        | some a => .ok (A.times cost a.1)                                  -- :90-92
        | none => do
          let bo ← getBackoff A f s                                         -- :95
          labelLoop A f label n bo.1 (A.times cost bo.2)                    -- :96

/-- `LabelCostInState`, ngram_char_fst_model.cc:80-100. -/
def labelCostInState (A : Arith) (f : Fst A.C) (fuel : Nat) (s label : Int) : Except Fault A.C :=
  if label = 0 then finalCostInState A f fuel s else labelLoop A f label fuel s A.one

/-- `SymLMScore`, ngram_char_fst_model.cc:76-78. -/
def symLMScore (encode : Int → Str) (fuel : Nat) (m : Model A.C) (s sym : Int) : Except Fault A.C :=
  labelCostInState A m.fst fuel s (symLabel encode m sym)

/-- The costs of a list of labels. -/
def costsOf (A : Arith) (f : Fst A.C) (fuel : Nat) (s : Int) : List Int → Except Fault (List A.C)
  | [] => .ok []
  | l :: ls => do
    let c ← labelCostInState A f fuel s l
    let cs ← costsOf A f fuel s ls
    .ok (c :: cs)

/-- `ExtractLMScores`, ngram_char_fst_model.cc:49-74; always true.  The symbol looked up at :66 by the
label of the `i`-th entry. -/
def extractLMScores (fuel : Nat) (m : Model A.C) (s : Int) : Except Fault (LMScores A.D) := do
  let cur := checkCurrentState m s                                          -- :50
  let labels := m.symbols.tail.map Prod.fst                                 -- :62-63
  let costs ← costsOf A m.fst fuel cur (0 :: labels)                        -- :60, :64-65
  let norm ← Scores.softmaxRenormalize A costs                              -- :68
  .ok { symbols := [] :: labels.map m.symbols.findSymbol                    -- :61, :66
        probs := norm.map A.prob                                            -- :69-71
        norm := A.ofInt 1 }                                                 -- :72

/-- `UpdateLMCounts`, ngram_fst_model.cc:83-88: returns true, changes nothing. -/
def updateLMCounts (m : Model A.C) (_state : Int) (_syms : List Int) (_count : Int) :
    Bool × Model A.C := (true, m)

/-- `start_state()` of the character model: language_model.h:52, :81; `Read` does not set it (the word
model's does, ngram_word_fst_model.cc:243). -/
def startState (_m : Model A.C) : Int := 0

end Mozolm.NGram
