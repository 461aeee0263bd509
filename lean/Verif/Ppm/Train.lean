import Verif.Ppm.Read
import Verif.XR

/-!
# Model of training a PPM model from text

`mozolm/models/ppm_as_fst_model.cc:78-207`, `:347-444` and the text branch of `Read` (`:479-485`), over exact
arithmetic: the code stores plain counts and costs in the same `float` field, so here both are `XR`.
A line of text is the list of its characters (`StrSplitByChar`).  The OpenGrm counter is not in the
repository: it is a parameter (its contract is in `TrainSpec.lean`).
-/

namespace Mozolm.Ppm
noncomputable section
open Classical XR

/-- `impl::GetArcLabelSet`, ppm_as_fst_model.cc:78-89. -/
def arcLabels (st : FState XR) : List Int := (st.arcs.map Arc.label).filter fun l => decide (0 < l)

/-- The loop of `impl::DetermineBackoffStates`, ppm_as_fst_model.cc:95-104, from state `s` on. -/
def markBackoff (f : Fst XR) : Nat → Nat → List Bool → Res (List Bool)
  | 0, _, bs => pure bs
  | k + 1, s, bs => do
    let b ← getBackoffState f (s : Int)                                     -- :96
    if b ≥ (bs.length : Int) then .fail                                     -- :97-99
    else if b ≥ 0 then markBackoff f k (s + 1) (bs.set b.toNat true)        -- :100-102
    else markBackoff f k (s + 1) bs

/-- `impl::DetermineBackoffStates`, ppm_as_fst_model.cc:92-105. -/
def determineBackoffStates (f : Fst XR) : Res (List Bool) :=
  markBackoff f f.states.length 0 (List.replicate f.states.length false)

/-- Body of `impl::ZeroOutLowerOrderCounts`, ppm_as_fst_model.cc:160-169. -/
def zeroState (st : FState XR) : FState XR :=
  { final := if st.final = .pinf then st.final else .fin 0                  -- :166-169
    arcs := st.arcs.map fun a => { a with weight := .fin 0 } }              -- :160-165

/-- `impl::ZeroOutLowerOrderCounts`, ppm_as_fst_model.cc:156-172.  Every step touches its own state. -/
def zeroOut (bs : List Bool) (f : Fst XR) : Fst XR :=
  { f with states := List.zipWith (fun b st => if b = true then zeroState st else st) bs f.states }

/-- Counting the symbols of one longer context at the state it backs off to,
ppm_as_fst_model.cc:180-194. -/
def incrementState (labels : List Int) (fin : Bool) (st : FState XR) : FState XR :=
  { final := if fin = true then add st.final (.fin 1) else st.final         -- :190-194
    arcs := st.arcs.map fun a =>
      if 0 < a.label ∧ a.label ∈ labels then { a with weight := add a.weight (.fin 1) } else a }

/-- `impl::IncrementLowerOrderCounts`, ppm_as_fst_model.cc:175-198, from state `s` on. -/
def incrementLoop : Nat → Nat → Fst XR → Res (Fst XR)
  | 0, _, f => pure f
  | k + 1, s, f => do
    let b ← getBackoffState f (s : Int)                                     -- :177
    if b ≥ 0 then                                                           -- :178
      match f.states[b.toNat]?, f.states[s]? with
      | some bst, some st =>
        incrementLoop k (s + 1) (setState f b (incrementState (arcLabels st) (decide (st.final ≠ .pinf)) bst))
      | _, _ => .fault .ub
    else incrementLoop k (s + 1) f

/-- The arcs of `impl::AggregateAndLogCounts`, ppm_as_fst_model.cc:111-123: the arcs with logarithms and
the sum of the counts; `none` is the error. -/
def logArcs : List (Arc XR) → XR → Option (List (Arc XR) × XR)
  | [], sum => some ([], sum)
  | a :: as, sum =>
    if 0 < a.label then                                                     -- :114
      if le a.weight (.fin 0) then none                                     -- :116-118
      else match logArcs as (add sum a.weight) with
        | none => none
        | some r => some ({ a with weight := negLog a.weight } :: r.1, r.2) -- :119-121
    else match logArcs as sum with
      | none => none
      | some r => some (a :: r.1, r.2)

/-- One state of `impl::FinalizeLowerOrderCounts`, ppm_as_fst_model.cc:137-149, with the final weight of
`impl::AggregateAndLogCounts`, :124-129. -/
def finalizeState (st : FState XR) : Res (FState XR) :=
  match logArcs st.arcs (.fin 0) with
  | none => .fail
  | some r =>
    let sum := if st.final = .pinf then r.2 else add r.2 st.final           -- :124-126
    let final := if st.final = .pinf then st.final else negLog st.final     -- :127
    match r.1 with
    | [] => .fault .ub                                                      -- :140
    | a :: rest =>
      if a.label = 0 then                                                   -- :141
        if le sum (.fin 0) then .fail                                       -- :143-145
        else pure { final, arcs := { a with weight := negLog sum } :: rest } -- :146-147
      else pure { final, arcs := a :: rest }

/-- The loop of `impl::FinalizeLowerOrderCounts`, ppm_as_fst_model.cc:135-151. -/
def finalizeLoop : List Bool → List (FState XR) → Res (List (FState XR))
  | b :: bs, st :: sts => do
    let st' ← (if b = true then finalizeState st else pure st)              -- :136
    let rest ← finalizeLoop bs sts
    pure (st' :: rest)
  | _, sts => pure sts

/-- `impl::CalculateUpdateExclusions`, ppm_as_fst_model.cc:201-207. -/
def calculateUpdateExclusions (f : Fst XR) : Res (Fst XR) := do
  let bs ← determineBackoffStates f
  let f1 ← incrementLoop f.states.length 0 (zeroOut bs f)
  let sts ← finalizeLoop bs f1.states
  pure { f1 with states := sts }

/-- The symbols without a unigram arc, ppm_as_fst_model.cc:366-377. -/
def missingSymbols (t : SymbolTable) (st : FState XR) : List Int :=
  (t.map Prod.fst).filter fun l => decide (0 < l ∧ l ∉ st.arcs.map Arc.label)

/-- `AddPriorCounts`, ppm_as_fst_model.cc:347-381. -/
def addPriorCounts (f : Fst XR) (t : SymbolTable) : Res (Fst XR) := do
  let u ← getBackoffState f (f.start : Int)                                 -- :348
  if u < 0 then .fail                                                       -- :349-352
  else match f.states[u.toNat]? with
    | none => .fault .ub
    | some st =>
      let more := missingSymbols t st
      let st' : FState XR :=
        { final := negLogSum st.final (.fin 0)                              -- :362-363
          arcs := (st.arcs.map fun a => { a with weight := negLogSum a.weight (.fin 0) })  -- :354-361
            ++ more.map fun l => { label := l, weight := .fin 0, next := u.toNat } }       -- :369-374
      let f' := setState f u st'
      pure (if more = [] then f' else arcSort f')                           -- :378-380

/-- `GetSymsVector` with `add_sym`, ppm_as_fst_model.cc:383-401. -/
def getSymsVector : List Str → SymbolTable → Res (List Int × SymbolTable)
  | [], t => pure ([], t)
  | c :: cs, t => do
    let t' := if t.findLabel c < 0 then t ++ [(nextLabel t, c)] else t      -- :388-393
    if t'.findLabel c ≤ 0 then .fail                                        -- :395-397
    else do
      let r ← getSymsVector cs t'
      pure (t'.findLabel c :: r.1, r.2)

/-- The loop of `TrainFromText`, ppm_as_fst_model.cc:422-436, up to the counting: the label sequences of
the lines that are not empty (`String2Fst` makes them linear automata), and the symbol table. -/
def encodeLines : List (List Str) → SymbolTable → Res (List (List Int) × SymbolTable)
  | [], t => pure ([], t)
  | l :: ls, t =>
    if l = [] then encodeLines ls t                                         -- :423
    else do
      let r ← getSymsVector l t
      let r' ← encodeLines ls r.2
      pure (r.1 :: r'.1, r'.2)

/-- `TrainFromText`, ppm_as_fst_model.cc:420-444; `counter` is what `NGramCounter::GetFst` returns after
counting the given strings. -/
def trainFromText (counter : List (List Int) → Fst XR) (lines : List (List Str)) :
    Res (Fst XR × SymbolTable) := do
  let r ← encodeLines lines epsilonTable
  let f ← calculateUpdateExclusions (arcSort (counter r.1))                 -- :437-439
  let f' ← addPriorCounts f r.2                                             -- :440
  pure (f', r.2)

/-- What `Read` makes of the lines of a text file, ppm_as_fst_model.cc:470-485: without lines the automaton
stays without states. -/
def trainLines (counter : List (List Int) → Fst XR) : List (List Str) → Res (Fst XR × SymbolTable)
  | [] => pure (⟨0, []⟩, epsilonTable)
  | l :: ls => trainFromText counter (l :: ls)                              -- :483

/-- `Read` with a text file, ppm_as_fst_model.cc:455-521: `lines` are its lines, `none` if it cannot be
read; `counter n` counts n-grams of order `n`. -/
def readText (counter : Nat → List (List Int) → Fst XR) (o : Options XR) (lines : Option (List (List Str)))
    (vocab : Option (Option (List (List Str)))) : Res (Model Arith.xr) :=
  match lines with
  | none => .fail                                                           -- :482
  | some ls => do
    let r ← trainLines (counter (initParameters Arith.xr o).maxOrder.toNat) ls  -- :477-478
    read Arith.xr o (.text (some r)) vocab

end
end Mozolm.Ppm
