import Verif.Basic
import Verif.Scores.Model

/-!
# Model of `mozolm/models/simple_bigram_char_model.{h,cc}`

Simplifications: `utf8_normalizer_` is a `double` used as a counter of integers; it is an `Int` here
(no rounding).  `int64_t` overflow of a count is undefined behaviour (`Fault.ub`).  File contents are
byte lists; opening a file either fails or yields its contents.
-/

namespace Mozolm.Bigram

/-- Members of `SimpleBigramCharModel`, simple_bigram_char_model.h:77-86. -/
structure Model where
  /-- `utf8_indices_` -/
  utf8 : List Int
  /-- `vocab_indices_` -/
  vocab : List Int
  /-- `utf8_normalizer_` -/
  norm : List Int
  /-- `bigram_counts_` -/
  counts : List (List Int)
  deriving DecidableEq, Repr

def maxInt32 : Int := 2147483647
def minInt32 : Int := -2147483648
def maxInt64 : Int := 9223372036854775807
def minInt64 : Int := -9223372036854775808

/-! ## Text input -/

/-- The successive results of `std::getline` on a stream (used in simple_bigram_char_model.cc:40 and
:67), `cur` being the characters of the current line read so far. -/
def getLines (cur : Str) : List Nat → List Str
  | [] => if cur = [] then [] else [cur]
  | b :: bs => if b = 10 then cur :: getLines [] bs else getLines (cur ++ [b]) bs

/-- `absl::StrSplit(str, ' ', absl::SkipEmpty())`, simple_bigram_char_model.cc:42-43 and :69-70. -/
def fields (cur : Str) : Str → List Str
  | [] => if cur = [] then [] else [cur]
  | b :: bs =>
    if b = 32 then (if cur = [] then fields [] bs else cur :: fields [] bs)
    else fields (cur ++ [b]) bs

/-- C-locale `isspace` -/
def isSpace (b : Nat) : Bool := b == 32 || (9 ≤ b && b ≤ 13)

def isDigit (b : Nat) : Bool := 48 ≤ b && b ≤ 57

/-- decimal value of a digit string -/
def digitsVal (ds : List Nat) : Nat := ds.foldl (fun a d => 10 * a + (d - 48)) 0

/-- `std::stoi` / `std::stol` (simple_bigram_char_model.cc:47 and :77): leading white space, optional
sign, digits; anything after the digits is ignored.  Throws when there is no digit or the value is
outside `[lo, hi]`. -/
def stoi (lo hi : Int) (s : Str) : Except Fault Int :=
  let s := s.dropWhile isSpace
  let neg := s.head? == some 45
  let s := if s.head? = some 45 ∨ s.head? = some 43 then s.tail else s
  let ds := s.takeWhile isDigit
  if ds = [] then .error .thrown
  else
    let v : Int := if neg then -(digitsVal ds : Int) else (digitsVal ds : Int)
    if lo ≤ v ∧ v ≤ hi then .ok v else .error .thrown

/-- Loop of `ReadVocabSymbols`, simple_bigram_char_model.cc:40-53.  `none`: an error status. -/
def vocabLoop (last : Int) (acc : List Int) : List Str → Except Fault (Option (List Int))
  | [] => .ok (some acc)                                                   -- :55
  | line :: lines =>
    if line = [] then .ok none                                             -- :41
    else match fields [] line with
      | [f] => do
        let sym ← stoi minInt32 maxInt32 f                                 -- :47
        if sym ≤ last then .ok none                                        -- :48-50
        else vocabLoop sym (acc ++ [sym]) lines                            -- :51-52
      | _ => .ok none                                                      -- :44-46

/-- `ReadVocabSymbols`, simple_bigram_char_model.cc:31-56; the argument is `none` when the file cannot
be opened (:35-37). -/
def readVocabSymbols : Option (List Nat) → Except Fault (Option (List Int))
  | none => .ok none
  | some bytes => vocabLoop (-1) [] (getLines [] bytes)

/-- Inner loop of `ReadCountMatrix`, simple_bigram_char_model.cc:76-83: the row and the normalizers.
The write `(*utf8_normalizer)[idx]` (:82) is checked. -/
def countRow (idx : Nat) (norm : List Int) (row : List Int) :
    List Str → Except Fault (List Int × List Int)
  | [] => .ok (row, norm)
  | f :: fs => do
    let c ← stoi minInt64 maxInt64 f                                       -- :77
    let c := if 1 < c then c else 1                                        -- :75, :78-81
    match norm[idx]? with
    | none => .error .ub
    | some x => countRow idx (norm.set idx (x + c)) (row ++ [c]) fs        -- :82

/-- Loop of `ReadCountMatrix`, simple_bigram_char_model.cc:67-86.  Result: number of rows read,
normalizers, matrix; `none`: an error status. -/
def countLoop (rows idx : Nat) (norm : List Int) (mat : List (List Int)) :
    List Str → Except Fault (Option (Nat × List Int × List (List Int)))
  | [] => .ok (some (idx, norm, mat))
  | line :: lines =>
    if line = [] then .ok none                                             -- :68
    else
      let fs := fields [] line                                             -- :69-70
      if fs.length ≠ rows then .ok none                                    -- :71-74
      else do
        let r ← countRow idx norm [] fs                                    -- :75-83
        countLoop rows (idx + 1) r.2 (mat ++ [r.1]) lines                  -- :84-85

/-- `ReadCountMatrix`, simple_bigram_char_model.cc:58-92. -/
def readCountMatrix (file : Option (List Nat)) (rows : Nat) (norm : List Int) :
    Except Fault (Option (List Int × List (List Int))) :=
  match file with
  | none => .ok none                                                       -- :63-65
  | some bytes => do
    match ← countLoop rows 0 norm [] (getLines [] bytes) with
    | none => .ok none
    | some (idx, norm, mat) => if idx ≠ rows then .ok none else .ok (some (norm, mat)) -- :87-89

/-- Loop of `Read`, simple_bigram_char_model.cc:128-139.  `none`: an error status. -/
def indexLoop (i : Nat) (vocab : List Int) : List Int → Option (List Int)
  | [] => some vocab
  | u :: us =>
    if (vocab.length : Int) ≤ u then none                                  -- :130-134
    else if u < 0 then none                                                -- :135-137
    else indexLoop (i + 1) (vocab.set u.toNat (i : Int)) us                -- :138

/-- lines :118-139 of `Read`: the dense default counts when none were read, and the index table.
`utf8_indices_.back()` (:127) is undefined on an empty vector, and `+ 1` overflows `int` at the
maximum. -/
def finishRead (utf8 norm : List Int) (counts : List (List Int)) : Except Fault (Option Model) :=
  let n := utf8.length
  let p := if counts = [] then (List.replicate n (n : Int), List.replicate n (List.replicate n 1))
           else (norm, counts)                                             -- :118-126
  match utf8.getLast? with
  | none => .error .ub
  | some b =>
    if maxInt32 ≤ b then .error .ub
    else
      match indexLoop 0 (List.replicate (b + 1).toNat (-1)) utf8 with      -- :127-139
      | none => .ok none
      | some vocab => .ok (some { utf8, vocab, norm := p.1, counts := p.2 })

/-- The built-in vocabulary, simple_bigram_char_model.cc:112-116. -/
def defaultVocab : List Int := 0 :: 32 :: (List.range 26).map fun i => (97 : Int) + (i : Nat)

/-- A file named in the storage: not given (empty name), or given and its contents (`none` if it
cannot be opened). -/
inductive FileArg where
  | absent
  | named (contents : Option (List Nat))

/-- `Read`, simple_bigram_char_model.cc:96-141, on a fresh object. -/
def read (vocabFile countsFile : FileArg) : Except Fault (Option Model) :=
  match vocabFile with
  | .absent => finishRead defaultVocab [] []                               -- :109-117
  | .named v => do
    match ← readVocabSymbols v with                                        -- :102
    | none => .ok none
    | some utf8 =>
      let norm := List.replicate utf8.length 0                             -- :103
      match countsFile with
      | .absent => finishRead utf8 norm []
      | .named c => do
        match ← readCountMatrix c utf8.length norm with                    -- :106-107
        | none => .ok none
        | some (norm, counts) => finishRead utf8 norm counts

/-! ## Queries -/

/-- `ValidState`, simple_bigram_char_model.cc:143-145. -/
def Model.validState (m : Model) (s : Int) : Bool := s < (m.utf8.length : Int) && 0 ≤ s

/-- `StateSym`, simple_bigram_char_model.cc:151-153 (the access is guarded by `ValidState`). -/
def stateSym (m : Model) (s : Int) : Int :=
  if 0 ≤ s then (match m.utf8[s.toNat]? with | some x => x | none => -1) else -1

/-- `NextState` = `SymState`, simple_bigram_char_model.cc:147-149, 155-161. -/
def nextState (m : Model) (_s c : Int) : Int :=
  if 0 ≤ c then (match m.vocab[c.toNat]? with | some x => x | none => -1) else -1

/-- `ValidState(state) ? state : 0`, simple_bigram_char_model.cc:166-169, 180-183, 205-208. -/
def Model.fix (m : Model) (s : Int) : Nat := if m.validState s then s.toNat else 0

/-- The pairs produced by the loop of `ExtractLMScores`, simple_bigram_char_model.cc:171-175; the
access `utf8_indices_[i]` is checked.  `enc` is `nisaba::utf8::EncodeUnicodeChar`. -/
def scoreLoop (A : Arith) (enc : Int → Str) (m : Model) (nrm : Int) :
    Nat → List Int → Except Fault (List (Str × A.D))
  | _, [] => .ok []
  | i, c :: cs =>
    match m.utf8[i]? with
    | none => .error .ub
    | some u => do
      let rest ← scoreLoop A enc m nrm (i + 1) cs
      .ok ((enc u, A.ddiv (A.ofInt c) (A.ofInt nrm)) :: rest)

/-- `ExtractLMScores`, simple_bigram_char_model.cc:163-177 (always returns true). -/
def extractLMScores (A : Arith) (enc : Int → Str) (m : Model) (s : Int) :
    Except Fault (LMScores A.D) :=
  let st := m.fix s
  match m.norm[st]?, m.counts[st]? with
  | some nrm, some row => do
    let l ← scoreLoop A enc m nrm 0 row
    .ok { symbols := l.map Prod.fst, probs := l.map Prod.snd, norm := A.ofInt nrm }
  | _, _ => .error .ub

/-- `SymLMScore`, simple_bigram_char_model.cc:179-193; the accesses are checked. -/
def symLMScore (A : Arith) (m : Model) (s c : Int) : Except Fault A.C :=
  let st := m.fix s
  let ns := nextState m st c                                               -- :184
  if m.validState (st : Int) && m.validState ns then                       -- :186
    match m.counts[st]?, m.norm[st]? with
    | some row, some nrm =>
      match row[ns.toNat]? with
      | some x => .ok (A.cost (A.ddiv (A.ofInt x) (A.ofInt nrm)))          -- :189-190
      | none => .error .ub
    | _, _ => .error .ub
  else .ok (A.cost (A.ofInt 0))                                            -- :185, :192

/-! ## Updates -/

/-- simple_bigram_char_model.cc:215-216: both increments, with checked accesses and `int64_t` range. -/
def bump (m : Model) (i j : Nat) (n : Int) : Except Fault Model :=
  match m.norm[i]?, m.counts[i]? with
  | some x, some row =>
    match row[j]? with
    | some c =>
      if c + n ≤ maxInt64 then
        .ok { m with norm := m.norm.set i (x + n), counts := m.counts.set i (row.set j (c + n)) }
      else .error .ub
    | none => .error .ub
  | _, _ => .error .ub

/-- Loop of `UpdateLMCounts`, simple_bigram_char_model.cc:209-219. -/
def updateLoop (m : Model) (n : Int) (i : Nat) : List Int → Except Fault Model
  | [] => .ok m
  | c :: cs =>
    let ns := nextState m i c                                              -- :210
    if ns < 0 then updateLoop m n 0 cs                                     -- :211-213, :218
    else do
      let m ← bump m i ns.toNat n                                          -- :215-216
      updateLoop m n ns.toNat cs                                           -- :218

/-- `UpdateLMCounts`, simple_bigram_char_model.cc:195-221 (always returns true). -/
def updateLMCounts (m : Model) (s : Int) (cs : List Int) (n : Int) : Except Fault (Bool × Model) :=
  if n ≤ 0 then .ok (true, m)                                              -- :201-204
  else do
    let m ← updateLoop m n (m.fix s) cs
    .ok (true, m)

/-- An update request. -/
structure Update where
  state : Int
  syms : List Int
  count : Int

/-- A history of updates. -/
def run (m : Model) : List Update → Except Fault Model
  | [] => .ok m
  | u :: us => do
    let r ← updateLMCounts m u.state u.syms u.count
    run r.2 us

/-- `LanguageModel::ContextState`, language_model.cc:26-41, for this model (`start_state_` 0). -/
def contextState (m : Model) (cs : List Int) (init : Int) : Int :=
  cs.foldl (fun s c => let s' := nextState m s c; if s' < 0 then 0 else s') (if init < 0 then 0 else init)

end Mozolm.Bigram
