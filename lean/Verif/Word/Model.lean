import Verif.NGram.Model

/-!
# Model of `mozolm/models/ngram_word_fst_model.{h,cc}`

A `Str` is the list of the code points of a UTF-8 string: `StrSplitByChar` splits it into one-character
strings, `DecodeSingleUnicodeChar` of a one-character string is its code point, and the byte order used
by `std::sort` is the lexicographic order of code points (property of UTF-8).
Vector accesses without bounds check give `Fault.ub` when out of range; `absl::Status` errors are
`none`/`false`; loops take fuel, which the theorems show sufficient.
Simplifications: `int` counters do not overflow; `float` weights and `double`s are one type of costs;
the Kahan compensation of `NegLogSum` is left out; `Reserve` has no effect.
-/

namespace Mozolm.Word

/-- reading a vector element -/
def getI {α : Type} (l : List α) (i : Int) : Except Fault α :=
  if i < 0 then .error .ub
  else match l[i.toNat]? with
    | some a => .ok a
    | none => .error .ub

/-- writing a vector element -/
def setI {α : Type} (l : List α) (i : Int) (a : α) : Except Fault (List α) :=
  if 0 ≤ i ∧ i < l.length then .ok (l.set i.toNat a) else .error .ub

/-- `impl::SafeNegLogDiff`, ngram_word_fst_model.cc:50-55. -/
def safeNegLogDiff (A : Arith) (c1 c2 : A.C) : A.C := if A.ge c1 c2 then A.inf else A.nld c1 c2

/-- `nisaba::utf8::StrSplitByChar`. -/
def strSplitByChar (w : Str) : List Str := w.map fun c => [c]

/-- `impl::GetNextChar`, ngram_word_fst_model.cc:58-65. -/
def getNextChar (w : Str) (idx : Int) : Str :=
  if idx < 0 then [32] else
  match (strSplitByChar w)[idx.toNat]? with
  | some c => c
  | none => [32]

/-- `nisaba::utf8::DecodeSingleUnicodeChar`; `none`: not exactly one character. -/
def decodeSingle : Str → Option Int
  | [c] => some c
  | _ => none

/-- `operator<=` on the strings being sorted. -/
def strLe : Str → Str → Bool
  | [], _ => true
  | _ :: _, [] => false
  | a :: as, b :: bs => if a < b then true else if b < a then false else strLe as bs

/-- Insertion into a sorted list. -/
def insertStr (w : Str) : List Str → List Str
  | [] => [w]
  | v :: vs => if strLe w v then w :: v :: vs else v :: insertStr w vs

/-- `std::sort` on strings.  Equal strings cannot be told apart, so every sorting algorithm gives the
same list; insertion sort is written here. -/
def sortStr (l : List Str) : List Str := l.foldr insertStr []

/-! ## Lexicographic tables -/

/-- The tables of ngram_word_fst_model.h:206-217. -/
structure Tables where
  /-- `lexicographic_order_` -/
  order : List Int
  /-- `lexicographic_position_` -/
  position : List Int
  /-- `previous_common_prefix_length_` -/
  prevPrefix : List Int
  /-- `first_chars_` -/
  firstChars : List Str
  /-- `first_char_ends_` -/
  firstEnds : List Int
  deriving Repr, DecidableEq

/-- Length of the common prefix of two split strings, ngram_word_fst_model.cc:93-98. -/
def prefixMatch : List Str → List Str → Nat
  | a :: as, b :: bs => if a = b then prefixMatch as bs + 1 else 0
  | _, _ => 0

/-- One iteration of the loop :89-114 that stores a word: tables, `idx`, `last_string`. -/
def addWord (T : Tables) (idx : Int) (last : List Str) (sym : Int) (w : Str) : Except Fault Tables := do
  let this := strSplitByChar w                                              -- :92
  let m := prefixMatch last this                                            -- :93-98
  let ends := if m = 0 ∧ idx > 1 then T.firstEnds ++ [idx - 1] else T.firstEnds -- :99-104
  let chars := if m = 0 then T.firstChars ++ [this.headD []] else T.firstChars  -- :105-107
  let prevPrefix ← setI T.prevPrefix idx m                                  -- :109
  let order ← setI T.order idx sym                                          -- :110
  let position ← setI T.position sym idx                                    -- :111
  .ok { order, position, prevPrefix, firstChars := chars, firstEnds := ends }

/-- The loop ngram_word_fst_model.cc:89-114. -/
def addWords (t : SymbolTable) (oov : Int) : List Str → Tables → Int → List Str →
    Except Fault (Tables × Int)
  | [], T, idx, _ => .ok (T, idx)
  | w :: ws, T, idx, last =>
    let sym := t.findLabel w                                                -- :90
    if sym ≠ 0 ∧ sym ≠ oov then do                                          -- :91
      let T' ← addWord T idx last sym w
      addWords t oov ws T' (idx + 1) (strSplitByChar w)                     -- :111-112
    else addWords t oov ws T idx last

/-- ngram_word_fst_model.cc:71-85: the tables before the loop. -/
def initTables (n : Nat) : Except Fault Tables := do
  let zeros : List Int := List.replicate n 0                                -- :77-79
  let prevPrefix ← setI zeros 0 0                                           -- :83
  let order ← setI zeros 0 0                                                -- :84
  let position ← setI zeros 0 0                                             -- :85
  .ok { order, position, prevPrefix, firstChars := [], firstEnds := [] }

/-- ngram_word_fst_model.cc:116-122: the unknown word is put last. -/
def addUnknown (oov : Int) (T : Tables) (idx : Int) : Except Fault (Tables × Int) :=
  if oov ≥ 0 then do
    let order ← setI T.order idx oov                                        -- :119
    let prevPrefix ← setI T.prevPrefix idx 0                                -- :120
    let order' ← setI order oov idx                                         -- :121 (sic)
    .ok ({ T with order := order', prevPrefix }, idx + 1)
  else .ok (T, idx)

/-- The sorted symbols, ngram_word_fst_model.cc:72-76. -/
def sortedSymbols (t : SymbolTable) : List Str :=
  sortStr ((List.range t.length).map fun i : Nat => t.findSymbol (i : Int))

/-- `EstablishLexicographicOrdering`, ngram_word_fst_model.cc:70-125: the tables, or `none` for the
error status. -/
def buildTables (t : SymbolTable) (oov : Int) : Except Fault (Option Tables) := do
  let T0 ← initTables t.length
  let r ← addWords t oov (sortedSymbols t) T0 1 [[]]                        -- :85-114
  let T1 := { r.1 with firstEnds := r.1.firstEnds ++ [r.2 - 1] }            -- :115
  let u ← addUnknown oov T1 r.2                                             -- :116-122
  if u.2 ≠ t.length then .ok none else .ok (some u.1)                       -- :123-125

/-! ## Implicit states -/

/-- What is stored for an implicit state, ngram_word_fst_model.h:91-94 (four vectors of equal length). -/
structure Info where
  modelState : Int
  prefixLength : Int
  beginIndex : Int
  endIndex : Int
  deriving Repr, DecidableEq

/-- `NGramImplicitStates`, ngram_word_fst_model.h:88-102. -/
structure Implicit where
  /-- `explicit_model_states_` -/
  explicit : Int
  /-- `total_model_states_` -/
  total : Int
  /-- `max_prefix_length_` -/
  maxPrefix : Int
  infos : List Info
  /-- `explicit_state_begin_index_` -/
  explicitBegin : Int
  /-- `explicit_state_end_index_` -/
  explicitEnd : Int
  /-- `prefix_length_implicit_state_map_`: per prefix length the map from (model state, begin index) -/
  maps : List (List ((Int × Int) × Int))
  deriving Repr, DecidableEq

/-- The longest symbol, ngram_word_fst_model.cc:576-582. -/
def maxLength (t : SymbolTable) : Int :=
  t.foldl (fun m e => if ((strSplitByChar e.2).length : Int) > m then ((strSplitByChar e.2).length : Int) else m) 0

/-- The constructor, ngram_word_fst_model.cc:570-585. -/
def Implicit.new (numStates : Nat) (t : SymbolTable) (beginIndex endIndex : Int) : Implicit :=
  { explicit := numStates, total := numStates, maxPrefix := maxLength t, infos := []
    explicitBegin := beginIndex, explicitEnd := endIndex, maps := [] }

/-- `GetPrefixIdx`, ngram_word_fst_model.cc:587-606. -/
def getPrefixIdx (I : Implicit) (prefixLength : Int) : Option Int × Implicit :=
  if prefixLength ≤ 0 then (none, I)                                        -- :588-590
  else if prefixLength > I.maxPrefix then (none, I)                         -- :591-593
  else if prefixLength - 1 > I.maps.length then (none, I)                   -- :595-599
  else if prefixLength - 1 = I.maps.length then                             -- :600-604
    (some (prefixLength - 1), { I with maps := I.maps ++ [[]] })
  else (some (prefixLength - 1), I)

/-- `flat_hash_map::find` -/
def mapFind (m : List ((Int × Int) × Int)) (key : Int × Int) : Option Int :=
  (m.find? fun e => e.1 == key).map Prod.snd

/-- `flat_hash_map::insert`: keeps an existing entry -/
def mapInsert (m : List ((Int × Int) × Int)) (key : Int × Int) (v : Int) : List ((Int × Int) × Int) :=
  match mapFind m key with
  | some _ => m
  | none => m ++ [(key, v)]

/-- `FindExistingState`, ngram_word_fst_model.cc:608-628; -1 if there is none. -/
def findExistingState (I : Implicit) (modelState prefixLength beginIndex : Int) :
    Except Fault (Int × Implicit) :=
  if prefixLength = 0 then                                                  -- :610-616
    if modelState < 0 ∨ modelState ≥ I.explicit then .ok (-1, I) else .ok (modelState, I)
  else
    match getPrefixIdx I prefixLength with
    | (none, I') => .ok (-1, I')                                            -- :627
    | (some i, I') => do
      let m ← getI I'.maps i
      .ok ((mapFind m (modelState, beginIndex)).getD (-1), I')              -- :619-625

/-- `AddNewState`, ngram_word_fst_model.cc:630-644. -/
def addNewState (I : Implicit) (modelState prefixLength beginIndex endIndex : Int) :
    Except Fault (Option Int × Implicit) :=
  match getPrefixIdx I prefixLength with
  | (none, I') => .ok (none, I')                                            -- :635
  | (some i, I') => do
    let m ← getI I'.maps i
    let maps ← setI I'.maps i (mapInsert m (modelState, beginIndex) I'.total) -- :641-642
    .ok (some I'.total, { I' with
      total := I'.total + 1                                                 -- :636
      infos := I'.infos ++ [⟨modelState, prefixLength, beginIndex, endIndex⟩] -- :637-640
      maps })

/-- `GetState`, ngram_word_fst_model.cc:646-663. -/
def getState (I : Implicit) (modelState prefixLength beginIndex endIndex : Int) :
    Except Fault (Option Int × Implicit) :=
  if prefixLength = 0 then                                                  -- :649-655
    if modelState < 0 ∨ modelState ≥ I.explicit then .ok (none, I) else .ok (some modelState, I)
  else do
    let r ← findExistingState I modelState prefixLength beginIndex          -- :656-657
    if r.1 ≥ 0 then .ok (some r.1, r.2)                                     -- :658-660
    else addNewState r.2 modelState prefixLength beginIndex endIndex        -- :661

/-- `GetImplicitIdx`, ngram_word_fst_model.cc:665-678. -/
def getImplicitIdx (I : Implicit) (s : Int) : Option Int :=
  if s < I.explicit then some (-1)
  else if s ≥ I.total then none
  else if s - I.explicit ≥ I.infos.length ∨ s - I.explicit < 0 then none
  else some (s - I.explicit)

/-- `model_state`, `prefix_length`, `symbol_begin_index`, `symbol_end_index`,
ngram_word_fst_model.cc:680-715, together; `none` is the error status. -/
def info (I : Implicit) (s : Int) : Except Fault (Option Info) :=
  if s < I.explicit then .ok (some ⟨s, 0, I.explicitBegin, I.explicitEnd⟩)
  else match getImplicitIdx I s with
    | none => .ok none
    | some i => do
      let x ← getI I.infos i
      .ok (some x)

/-! ## The model -/

/-- `NGramStateCache`, ngram_word_fst_model.h:150-157. -/
structure Entry (C : Type) where
  state : Int
  lastAccessed : Int
  /-- `cummulative_neg_log_probs_` -/
  cum : List C
  deriving Repr, DecidableEq

/-- The cache members of `NGramWordFstModel`, ngram_word_fst_model.h:223-227. -/
structure Cache (C : Type) where
  /-- `cache_accessed_` -/
  accessed : Int
  /-- `cache_index_` -/
  index : List Int
  /-- `state_cache_` -/
  entries : List (Entry C)
  deriving Repr, DecidableEq

/-- The members of `NGramWordFstModel` that never change after `Read`. -/
structure Static (C : Type) where
  base : NGram.Model C
  tables : Tables
  /-- `oov_state_` -/
  oovState : Int
  /-- `max_cache_size_` -/
  maxCache : Int

/-- `NGramWordFstModel`. -/
structure Model (C : Type) where
  static : Static C
  imp : Implicit
  cache : Cache C

variable {A : Arith}

/-- `cummulative_neg_log_prob`, ngram_word_fst_model.cc:563-568. -/
def cumAt (A : Arith) (cum : List A.C) (idx : Int) : A.C :=
  if idx < 0 then A.inf else
  match cum[idx.toNat]? with
  | some c => c
  | none => A.inf

/-- The arc loop of `FillWeightVector`, ngram_word_fst_model.cc:149-156: `weights`, `weights_here`. -/
def arcWeights {C : Type} (position : List Int) : List (Arc C) → List C → List Bool →
    Except Fault (List C × List Bool)
  | [], w, h => .ok (w, h)
  | a :: as, w, h =>
    if a.label > 0 then do                                                  -- :152
      let p ← getI position a.label
      let w' ← setI w p a.weight                                            -- :153
      let h' ← setI h p true                                                -- :154
      arcWeights position as w' h'
    else arcWeights position as w h

/-- The accumulation loop, ngram_word_fst_model.cc:181-190: `prev` is `weights[i - 1]`; the vectors are
those from `i` on, the backoff vector that from `i - 1` on. -/
def accumulate (A : Arith) (backoffWeight : A.C) : A.C → List A.C → List Bool → List A.C →
    Except Fault (List A.C)
  | _, [], _, _ => .ok []
  | _, _ :: _, [], _ => .error .ub
  | prev, w :: ws, true :: hs, bs => do
    let c := A.nls w prev                                                   -- :189
    let rest ← accumulate A backoffWeight c ws hs bs.tail
    .ok (c :: rest)
  | prev, _ :: ws, false :: hs, b :: b' :: bs => do
    let w := A.times backoffWeight (safeNegLogDiff A b' b)                  -- :184-186
    let c := A.nls w prev
    let rest ← accumulate A backoffWeight c ws hs (b' :: bs)
    .ok (c :: rest)
  | _, _ :: _, false :: _, _ => .error .ub

/-- ngram_word_fst_model.cc:169-191: the cumulative vector from the arc weights and the cumulative
vector of the backoff state (empty if there is none). -/
def combine (A : Arith) (final : A.C) (backoffWeight : A.C) (backoff : List A.C) (weights : List A.C)
    (here : List Bool) : Except Fault (List A.C) :=
  let here := if backoff.isEmpty then List.replicate weights.length true else here -- :169-173
  match weights with
  | [] => .error .ub                                                        -- :176 / :178
  | w0 :: ws =>
    let w0' := if !A.isInf final then final                                 -- :174-176
      else match backoff with
        | b0 :: _ => A.times b0 backoffWeight                               -- :177-178
        | [] => w0
    do let rest ← accumulate A backoffWeight w0' ws here.tail backoff
       .ok (w0' :: rest)

/-- `FindOldestLastAccessedCache`, ngram_word_fst_model.cc:194-204: index and time of the oldest of a
best candidate and the entries from `i` on. -/
def oldestFrom {C : Type} : List (Entry C) → Nat → Nat → Int → Nat
  | [], _, best, _ => best
  | e :: es, i, best, t =>
    if e.lastAccessed < t then oldestFrom es (i + 1) i e.lastAccessed
    else oldestFrom es (i + 1) best t

/-- `GetNewCacheIndex`, ngram_word_fst_model.cc:206-224; false: error status. -/
def getNewCacheIndex {C : Type} (maxCache : Int) (s : Int) (weights : List C) (c : Cache C) :
    Except Fault (Bool × Cache C) :=
  if (c.entries.length : Int) < maxCache then do                            -- :208
    let index ← setI c.index s c.entries.length                             -- :209
    .ok (true, { accessed := c.accessed + 1, index                          -- :210-211
                 entries := c.entries ++ [⟨s, c.accessed, weights⟩] })
  else
    match c.entries with
    | [] => .error .ub                                                      -- :196
    | e0 :: es => do
      let k := oldestFrom es 1 0 e0.lastAccessed                            -- :213
      let old ← getI (e0 :: es) k                                           -- :214
      let i ← getI c.index old.state
      if i ≠ k then .ok (false, c)                                          -- :215-217
      else do
        let index ← setI c.index old.state (-1)                             -- :218
        let index' ← setI index s (k : Int)                                 -- :221
        .ok (true, { accessed := c.accessed + 1, index := index'
                     entries := (e0 :: es).set k ⟨s, c.accessed, weights⟩ }) -- :219-220

/-- `EnsureCacheIndex`, ngram_word_fst_model.cc:226-232, given `FillWeightVector`. -/
def ensureWith {C : Type} (maxCache : Int) (fill : Int → Cache C → Except Fault (List C × Cache C))
    (s : Int) (c : Cache C) : Except Fault (Bool × Cache C) := do
  let i ← getI c.index s
  if i ≥ 0 then .ok (true, c)                                               -- :227-229
  else do
    let r ← fill s c                                                        -- :230
    getNewCacheIndex maxCache s r.1 r.2                                     -- :231

/-- `state_cache_[cache_index_[s]]->set_last_accessed(cache_accessed_++)`. -/
def touch {C : Type} (s : Int) (c : Cache C) : Except Fault (Cache C) := do
  let i ← getI c.index s
  let e ← getI c.entries i
  let entries ← setI c.entries i { e with lastAccessed := c.accessed }
  .ok { c with accessed := c.accessed + 1, entries }

/-- ngram_word_fst_model.cc:159-168: the cumulative vector of the backoff state, empty if there is no
backoff state (or its cache entry cannot be made). -/
def backoffVector {C : Type} (maxCache : Int)
    (fill : Int → Cache C → Except Fault (List C × Cache C)) (bo : Int) (c : Cache C) :
    Except Fault (List C × Cache C) :=
  if bo = -1 then .ok ([], c)                                               -- :160
  else do
    let r ← ensureWith maxCache fill bo c                                   -- :162
    if r.1 then do
      let v ← fill bo r.2                                                   -- :164
      let c' ← touch bo v.2                                                 -- :165-166
      .ok (v.1, c')
    else .ok ([], r.2)

/-- `FillWeightVector`, ngram_word_fst_model.cc:141-192. -/
def fillWeights (A : Arith) (M : Static A.C) : Nat → Int → Cache A.C →
    Except Fault (List A.C × Cache A.C)
  | 0, _, _ => .error .fuel
  | n + 1, s, c => do
    let i ← getI c.index s
    if i ≥ 0 then do                                                        -- :142-145
      let e ← getI c.entries i
      .ok (e.cum, c)
    else match M.base.fst.state? s with
      | none => .error .ub                                                  -- :149
      | some st => do
        let size := M.tables.order.length
        let wh ← arcWeights M.tables.position st.arcs (List.replicate size A.inf)
          (List.replicate size false)                                       -- :146-156
        let bo ← NGram.getBackoff A M.base.fst s                            -- :158
        let b ← backoffVector M.maxCache (fillWeights A M n) bo.1 c         -- :159-168
        let v ← combine A st.final bo.2 b.1 wh.1 wh.2                       -- :169-190
        .ok (v, b.2)

/-- `EnsureCacheIndex`, ngram_word_fst_model.cc:226-232. -/
def ensureCacheIndex (A : Arith) (M : Static A.C) (fuel : Nat) (s : Int) (c : Cache A.C) :
    Except Fault (Bool × Cache A.C) := ensureWith M.maxCache (fillWeights A M fuel) s c

/-- `EstablishLexicographicOrdering`, ngram_word_fst_model.cc:126-138: the out-of-vocabulary state and the
implicit states. -/
def establishStates (b : NGram.Model A.C) (T : Tables) : Except Fault (Option (Int × Implicit)) :=
  match T.firstEnds.getLast? with
  | none => .error .ub                                                      -- :127
  | some last => do
    let I := Implicit.new b.fst.states.length b.symbols 1 last              -- :126-127 (:86)
    let r ← getState I (-1) 1 (-1) (-1)                                     -- :131-133
    match r.1 with
    | none => .ok none                                                      -- :134-136
    | some s => .ok (some (s, r.2))                                         -- :137

/-- `Read`, ngram_word_fst_model.cc:234-247, after `NGramFstModel::Read` gave `b`; `none`: error
status.  `maxCacheSize` is the configured size. -/
def readWith (A : Arith) (fuel : Nat) (maxCacheSize : Int) (b : NGram.Model A.C) :
    Except Fault (Option (Model A.C)) := do
  let T ← buildTables b.symbols b.oov                                       -- :236
  match T with
  | none => .ok none
  | some T => do
    let r ← establishStates b T
    match r with
    | none => .ok none
    | some (oovState, imp) => do
      let M : Static A.C :=
        { base := b, tables := T, oovState
          maxCache := if maxCacheSize > b.hiOrder then maxCacheSize else 2000 } -- :237-240
      let c0 : Cache A.C := { accessed := 0, index := List.replicate b.fst.states.length (-1)
                              entries := [] }                               -- :241-242
      let e ← ensureCacheIndex A M fuel b.fst.start c0                      -- :246
      if e.1 then .ok (some { static := M, imp, cache := e.2 }) else .ok none

/-- `Read`, ngram_word_fst_model.cc:234-247. -/
def read (A : Arith) (fuel : Nat) (maxCacheSize : Int) (src : NGram.Source A.C) :
    Except Fault (Option (Model A.C)) := do
  let b ← NGram.read A src                                                  -- :235
  match b with
  | none => .ok none
  | some b => readWith A fuel maxCacheSize b

/-- `start_state()`: set by :243. -/
def startState (m : Model A.C) : Int := m.static.base.fst.start

/-! ## Next state -/

/-- The inner loop of `GetBeginEndIndices`, ngram_word_fst_model.cc:269-273. -/
def skipSame (prevPrefix : List Int) (k final : Int) : Nat → Int → Except Fault Int
  | 0, _ => .error .fuel
  | n + 1, i =>
    if i ≤ final then do
      let p ← getI prevPrefix i
      if p > k then skipSame prevPrefix k final n (i + 1) else .ok i
    else .ok i

/-- The character of the `i`-th word in lexicographic order at position `k`, :263-264, :371-372. -/
def charAt {C : Type} (M : Static C) (i k : Int) : Except Fault Str := do
  let l ← getI M.tables.order i
  .ok (getNextChar (M.base.symbols.findSymbol l) k)

/-- The outer loop of `GetBeginEndIndices`, ngram_word_fst_model.cc:262-275; `none`: `default_pair` is
returned (:265). -/
def findBegin {C : Type} (M : Static C) (k final sym : Int) : Nat → Int → Int →
    Except Fault (Option Int)
  | 0, _, _ => .error .fuel
  | n + 1, i, beginChar =>
    if i ≤ final ∧ sym ≠ beginChar then do
      let s ← charAt M i k
      match decodeSingle s with
      | none => .ok none                                                    -- :265
      | some ch =>
        if ch ≠ sym then do
          let j ← skipSame M.tables.prevPrefix k final (n + 1) (i + 1)      -- :268-273
          findBegin M k final sym n j ch
        else findBegin M k final sym n i ch
    else .ok (some i)

/-- ngram_word_fst_model.cc:280-285. -/
def findEnd (prevPrefix : List Int) (k final : Int) : Nat → Int → Except Fault Int
  | 0, _ => .error .fuel
  | n + 1, i =>
    if i < final then do
      let p ← getI prevPrefix (i + 1)
      if p > k then findEnd prevPrefix k final n (i + 1) else .ok i
    else .ok i

/-- `GetBeginEndIndices`, ngram_word_fst_model.cc:249-287, for a state with the given range.  The fuel
covers every index from `begin` to `final`. -/
def getBeginEndIndices {C : Type} (M : Static C) (x : Info) (prefixLength sym : Int) :
    Except Fault (Int × Int) := do
  let fuel := (x.endIndex - x.beginIndex).toNat + 3
  let b ← findBegin M prefixLength x.endIndex sym fuel x.beginIndex (-1)    -- :260-275
  match b with
  | none => .ok (-1, -1)
  | some b =>
    if x.endIndex < b then .ok (-1, -1)                                     -- :276-279
    else do
      let e ← findEnd M.tables.prevPrefix prefixLength x.endIndex fuel b    -- :280-285
      .ok (b, e)                                                            -- :286

/-- `NextCompleteState`, ngram_word_fst_model.cc:289-306. -/
def nextCompleteState (A : Arith) (fuel : Nat) (M : Static A.C) (x : Info) (modelState prefixLength : Int) :
    Except Fault Int := do
  let sym ← getI M.tables.order x.beginIndex                                -- :297
  if ((strSplitByChar (M.base.symbols.findSymbol sym)).length : Int) = prefixLength then -- :298-300
    NGram.nextModelState A M.base.fst M.base.unigram sym fuel modelState    -- :302
  else .ok M.base.unigram                                                   -- :305

/-- The search of `NextFirstLetterState`, ngram_word_fst_model.cc:311-320: begin and end index. -/
def findFirst (u : Str) : List Str → List Int → Int → Except Fault (Int × Int)
  | [], _, b => .ok (b, -1)
  | _ :: _, [], _ => .error .ub
  | c :: cs, e :: es, b => if c = u then .ok (b, e) else findFirst u cs es (e + 1)

/-- `NextFirstLetterState`, ngram_word_fst_model.cc:308-330; `encode` is `EncodeUnicodeChar`. -/
def nextFirstLetterState {C : Type} (encode : Int → Str) (M : Static C) (I : Implicit) (s sym : Int) :
    Except Fault (Int × Implicit) := do
  let r ← findFirst (encode sym) M.tables.firstChars M.tables.firstEnds 1
  if r.2 ≥ 0 then do
    let g ← getState I s 1 r.1 r.2                                          -- :322-328
    .ok (g.1.getD M.base.unigram, g.2)
  else .ok (M.base.unigram, I)                                              -- :321

/-- `NextState`, ngram_word_fst_model.cc:332-362. -/
def nextState (A : Arith) (encode : Int → Str) (fuel : Nat) (M : Static A.C) (I : Implicit)
    (s sym : Int) : Except Fault (Int × Implicit) :=
  if s < M.base.fst.states.length then nextFirstLetterState encode M I s sym -- :333-336
  else if s = M.oovState ∧ sym = 32 then .ok (M.base.unigram, I)            -- :337-340
  else do
    let x ← info I s                                                        -- :342-343
    match x with
    | none => .ok (M.oovState, I)
    | some x =>
      if x.modelState ≥ 0 then                                              -- :344
        if sym = 32 then do                                                 -- :345-348
          let r ← nextCompleteState A fuel M x x.modelState x.prefixLength
          .ok (r, I)
        else do
          let be ← getBeginEndIndices M x x.prefixLength sym                -- :350-351
          if be.1 ≥ 0 ∧ be.2 ≥ 0 then do                                    -- :352
            let g ← getState I x.modelState (x.prefixLength + 1) be.1 be.2  -- :353-355
            .ok (g.1.getD M.oovState, g.2)                                  -- :356-358
          else .ok (M.oovState, I)
      else .ok (M.oovState, I)

/-! ## Scores -/

/-- The loop of `GetNextCharEnds`, ngram_word_fst_model.cc:373-384: characters and ends after the first
character. -/
def charEndsFrom {C : Type} (M : Static C) (k final : Int) : Nat → Int → Except Fault (List Str × List Int)
  | 0, _ => .error .fuel
  | n + 1, i =>
    if i ≤ final then do
      let j ← skipSame M.tables.prevPrefix k final (n + 1) i                -- :374-378
      if j ≤ final then do                                                  -- :379-383
        let ch ← charAt M j k
        let r ← charEndsFrom M k final n (j + 1)
        .ok (ch :: r.1, (j - 1) :: r.2)
      else .ok ([], [])
    else .ok ([], [])

/-- `GetNextCharEnds` for implicit states, ngram_word_fst_model.cc:364-387. -/
def charEndsImplicit {C : Type} (M : Static C) (x : Info) : Except Fault (List Str × List Int) := do
  let ch ← charAt M x.beginIndex x.prefixLength                             -- :371-372
  let r ← charEndsFrom M x.prefixLength x.endIndex ((x.endIndex - x.beginIndex).toNat + 3)
    (x.beginIndex + 1)                                                      -- :373-384
  .ok (ch :: r.1, r.2 ++ [x.endIndex])                                      -- :385

/-- `GetNextCharEnds`, ngram_word_fst_model.cc:389-408. -/
def getNextCharEnds {C : Type} (M : Static C) (I : Implicit) (s : Int) :
    Except Fault (List Str × List Int) :=
  if s < M.base.fst.states.length then .ok (M.tables.firstChars, M.tables.firstEnds) -- :391-395
  else do
    let x ← info I s
    match x with
    | none => .ok ([], [])                                                  -- :399-405
    | some x => if x.beginIndex < 0 then .ok ([], []) else charEndsImplicit M x

/-- The cached cumulative vector of a state, `*state_cache_[cache_index_[s]]`. -/
def cached {C : Type} (c : Cache C) (s : Int) : Except Fault (List C) := do
  let i ← getI c.index s
  let e ← getI c.entries i
  .ok e.cum

/-- `GetRangeCost`, ngram_word_fst_model.cc:410-421. -/
def getRangeCost (A : Arith) (fuel : Nat) (M : Static A.C) (s b e : Int) (c : Cache A.C) :
    Except Fault (A.C × Cache A.C) :=
  if s < 0 ∨ s > M.base.fst.states.length ∨ b < 1 ∨ b > e ∨ e ≥ M.tables.order.length then
    .ok (A.inf, c)                                                          -- :412-413
  else do
    let r ← ensureCacheIndex A M fuel s c                                   -- :414
    if r.1 then do
      let v ← cached r.2 s                                                  -- :417
      .ok (safeNegLogDiff A (cumAt A v e) (cumAt A v (b - 1)), r.2)         -- :418-420
    else .ok (A.inf, r.2)                                                   -- :415

/-- `GetFinalCost`, ngram_word_fst_model.cc:423-429. -/
def getFinalCost (A : Arith) (fuel : Nat) (M : Static A.C) (s : Int) (c : Cache A.C) :
    Except Fault (A.C × Cache A.C) :=
  if s < 0 ∨ s > M.base.fst.states.length then .ok (A.inf, c)               -- :424
  else do
    let r ← ensureCacheIndex A M fuel s c                                   -- :425
    if r.1 then do
      let v ← cached r.2 s
      .ok (cumAt A v 0, r.2)                                                -- :428
    else .ok (A.inf, r.2)                                                   -- :426

/-- The loop of `GetBackedoffFinalCost`, ngram_word_fst_model.cc:437-451. -/
def backedoffFinal (A : Arith) (f : Fst A.C) : Nat → Int → A.C → Except Fault A.C
  | 0, _, _ => .error .fuel
  | n + 1, s, cost =>
    if s = -1 then .ok cost                                                 -- :437
    else match f.state? s with
      | none => .error .ub
      | some st =>
        if !A.isInf st.final then .ok (A.times cost st.final)               -- :438-441
        else do
          let bo ← NGram.getBackoff A f s                                   -- :443-444
          backedoffFinal A f n bo.1 (if bo.1 = -1 then A.inf else A.times cost bo.2) -- :445-450

/-- `GetBackedoffFinalCost`, ngram_word_fst_model.cc:431-453. -/
def getBackedoffFinalCost (A : Arith) (fuel : Nat) (M : Static A.C) (s : Int) : Except Fault A.C :=
  if s < 0 ∨ s > M.base.fst.states.length then .ok A.inf                    -- :432-434
  else backedoffFinal A M.base.fst fuel s A.one                             -- :435

/-- The loop of `ExtractLMScores`, ngram_word_fst_model.cc:549-554: the costs. -/
def rangeCosts (A : Arith) (fuel : Nat) (M : Static A.C) (s : Int) : List Int → Int → Cache A.C →
    Except Fault (List A.C × Cache A.C)
  | [], _, c => .ok ([], c)
  | e :: es, b, c => do
    let x ← getRangeCost A fuel M s b e c                                   -- :551
    let r ← rangeCosts A fuel M s es (e + 1) x.2                            -- :553
    .ok (x.1 :: r.1, r.2)

/-- What `ExtractLMScores` has before renormalising: symbols and costs. -/
structure Raw (C : Type) where
  symbols : List Str
  costs : List C

/-- ngram_word_fst_model.cc:503-532: the first next character is a space. -/
def spaceScores (A : Arith) (fuel : Nat) (M : Static A.C) (modelState b : Int) (chars : List Str)
    (ends : List Int) (c : Cache A.C) : Except Fault (Raw A.C × Cache A.C) := do
  let sym ← getI M.tables.order b                                           -- :508
  let next ← NGram.nextModelState A M.base.fst M.base.unigram sym fuel modelState -- :509
  let final ← getBackedoffFinalCost A fuel M next                           -- :510
  if !A.isInf final then                                                    -- :511
    match ends with
    | [] => .error .ub                                                      -- :523
    | e :: es => do
      let w ← getRangeCost A fuel M modelState b e c                        -- :522-523
      let r ← rangeCosts A fuel M modelState es (e + 1) w.2                 -- :549-554
      .ok (⟨[32] :: [] :: chars.tail,                                       -- :528, :530, :552
            A.times w.1 (safeNegLogDiff A A.one final) :: A.times w.1 final :: r.1⟩, r.2) -- :526-529
  else do
    let r ← rangeCosts A fuel M modelState ends b c                         -- :549-554
    .ok (⟨chars, r.1⟩, r.2)

/-- ngram_word_fst_model.cc:533-548: the first next character is not a space. -/
def plainScores (A : Arith) (fuel : Nat) (M : Static A.C) (cur modelState b : Int) (chars : List Str)
    (ends : List Int) (c : Cache A.C) : Except Fault (Raw A.C × Cache A.C) := do
  let f ← getFinalCost A fuel M modelState c                                -- :535
  let r ← rangeCosts A fuel M modelState ends b f.2                         -- :549-554
  if modelState = cur ∧ !A.isInf f.1 then                                   -- :536-540
    .ok (⟨[] :: chars, f.1 :: r.1⟩, r.2)                                    -- :544-547
  else .ok (⟨chars, r.1⟩, r.2)

/-- ngram_word_fst_model.cc:503-554. -/
def rawScores (A : Arith) (fuel : Nat) (M : Static A.C) (cur modelState b : Int) (chars : List Str)
    (ends : List Int) (c : Cache A.C) : Except Fault (Raw A.C × Cache A.C) :=
  match chars with
  | [] => .error .ub                                                        -- :503
  | c0 :: _ =>
    if c0 = [32] then spaceScores A fuel M modelState b chars ends c
    else plainScores A fuel M cur modelState b chars ends c

/-- ngram_word_fst_model.cc:485-560, for a state with next characters. -/
def scoresAt (A : Arith) (fuel : Nat) (M : Static A.C) (cur : Int) (x : Option Info) (chars : List Str)
    (ends : List Int) (c : Cache A.C) (resp : LMScores A.D) :
    Except Fault (Bool × LMScores A.D × Cache A.C) :=
  match x with
  | none => .ok (false, resp, c)                                            -- :488
  | some x =>
    if x.beginIndex < 1 then .ok (false, resp, c)                           -- :488-491
    else do
      let r ← ensureCacheIndex A M fuel x.modelState c                      -- :494
      if r.1 then do
        let c1 ← touch x.modelState r.2                                     -- :498-499
        let raw ← rawScores A fuel M cur x.modelState x.beginIndex chars ends c1
        let norm ← Scores.softmaxRenormalize A raw.1.costs                  -- :555
        .ok (true, { symbols := resp.symbols ++ raw.1.symbols
                     probs := resp.probs ++ norm.map A.prob                 -- :556-558
                     norm := A.ofInt 1 }, raw.2)                            -- :559
      else .ok (false, resp, r.2)                                           -- :494-497

/-- `ExtractLMScores`, ngram_word_fst_model.cc:476-561: the result, the response (appended to the one
given) and the cache. -/
def extractLMScores (A : Arith) (fuel : Nat) (m : Model A.C) (s : Int) (resp : LMScores A.D) :
    Except Fault (Bool × LMScores A.D × Cache A.C) := do
  let cur := NGram.checkCurrentState m.static.base s                        -- :477
  let ce ← getNextCharEnds m.static m.imp cur                               -- :478-480
  match ce.2 with
  | [] => .ok (true, resp, m.cache)                                         -- :481-484
  | _ :: _ => do
    let x ← info m.imp cur                                                  -- :486-493
    scoresAt A fuel m.static cur x ce.1 ce.2 m.cache resp

/-- The empty response. -/
def noScores (A : Arith) : LMScores A.D := { symbols := [], probs := [], norm := A.ofInt 0 }

/-- The loop of `SymLMScore`, ngram_word_fst_model.cc:459-471: runs over the probabilities. -/
def findScore (A : Arith) (sym : Int) : List Str → List A.D → Except Fault A.C
  | _, [] => .ok A.inf
  | [], _ :: _ => .error .ub                                                -- :461
  | s :: ss, p :: ps =>
    let code := match s with
      | [] => 0                                                             -- :461-462
      | _ => (decodeSingle s).getD (-1)                                     -- :464-466
    if sym = code then .ok (A.cost p) else findScore A sym ss ps            -- :468-470

/-- `SymLMScore`, ngram_word_fst_model.cc:455-474. -/
def symLMScore (A : Arith) (fuel : Nat) (m : Model A.C) (s sym : Int) :
    Except Fault (A.C × Cache A.C) := do
  let r ← extractLMScores A fuel m s (noScores A)
  if r.1 then do
    let x ← findScore A sym r.2.1.symbols r.2.1.probs
    .ok (x, r.2.2)
  else .ok (A.inf, r.2.2)

end Mozolm.Word
