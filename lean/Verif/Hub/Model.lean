import Verif.Scores.Model

/-!
# Model of `mozolm/models/language_model_hub.{h,cc}`

The hub is generic in the component language models: `LMOps σ` gives the virtual functions of
`LanguageModel` (language_model.h:30-88) on an abstract component state `σ` (a sum type models
heterogeneous components).  Components are total here; a component fault would be a value of `σ`.
Hash-map iteration order is unspecified in C++; it is a parameter (`Env.orderN`, `Env.orderV`).
-/

namespace Mozolm.Hub

/-- The virtual functions of a component model (language_model.h:37-75). Every one may change the
component (caches), so each returns the component afterwards. -/
structure LMOps (A : Arith) (σ : Type) where
  /-- `start_state()` language_model.h:52 -/
  start : σ → Int
  /-- `NextState` language_model.h:43 -/
  next : σ → Int → Int → Int × σ
  /-- `ExtractLMScores` language_model.h:55: `none` is a `false` result -/
  extract : σ → Int → Option (LMScores A.D) × σ
  /-- `SymLMScore` language_model.h:67 -/
  symScore : σ → Int → Int → A.C × σ
  /-- `UpdateLMCounts` language_model.h:72 -/
  update : σ → Int → List Int → Int → Bool × σ

/-- Component operations plus the unspecified iteration orders of the two hash maps used. -/
structure Env (A : Arith) (σ : Type) extends LMOps A σ where
  /-- iteration order of `next_states_` -/
  orderN : List (Int × Nat) → List (Int × Nat)
  /-- iteration order of `mixed_values` -/
  orderV : List (Str × A.C) → List (Str × A.C)

/-- `LanguageModelHubState`, language_model_hub.h:103-114 (`model_state_prefixes_` is never used).
`next_states_` is a hash map: an association list with at most one entry per key. -/
structure HubState (C : Type) where
  modelStates : List Int
  prev : Int
  nexts : List (Int × Nat)
  sym : Int
  hist : List (List C)
  histSum : List C
  deriving Repr, DecidableEq

/-- `InitBayesianHistory`, language_model_hub.cc:406-413 (called from the constructor, .h:44-46,
when the length is positive): a zero matrix; otherwise the vectors stay empty. -/
def initHist (A : Arith) (nModels hlen : Nat) : List (List A.C) × List A.C :=
  if 0 < hlen then
    (List.replicate nModels (List.replicate hlen A.one), List.replicate nModels A.one)
  else ([], [])

/-- Constructor, language_model_hub.h:38-47. -/
def HubState.mk' (A : Arith) (modelStates : List Int) (prev sym : Int) (hlen : Nat) :
    HubState A.C :=
  let h := initHist A modelStates.length hlen
  { modelStates, prev, nexts := [], sym, hist := h.1, histSum := h.2 }

namespace HubState
variable {C : Type}

/-- look up a key in the association list -/
def lookup (l : List (Int × Nat)) (c : Int) : Option Nat :=
  match l with
  | [] => none
  | e :: l => if e.1 = c then some e.2 else lookup l c

/-- `next_state`, language_model_hub.h:65-68. -/
def nextState (st : HubState C) (c : Int) : Int :=
  match lookup st.nexts c with
  | some k => (k : Int)
  | none => -1

/-- `model_state`, language_model_hub.h:71-73. -/
def modelState (st : HubState C) (idx : Nat) : Int :=
  match st.modelStates[idx]? with
  | some x => x
  | none => -1

/-- `AddNextState`, language_model_hub.h:76-78: `insert` does not overwrite. -/
def addNextState (st : HubState C) (c : Int) (k : Nat) : HubState C :=
  match lookup st.nexts c with
  | some _ => st
  | none => { st with nexts := st.nexts ++ [(c, k)] }

/-- `ResetPrevState`, language_model_hub.h:95-97. -/
def resetPrev (st : HubState C) : HubState C := { st with prev := -1 }

/-- `LanguageModelHubState::UpdateHubState`, language_model_hub.cc:385-404: `none` is the
InternalError; otherwise the overwritten state and the old successors. -/
def updateHubState (orderN : List (Int × Nat) → List (Int × Nat)) (st new : HubState C) :
    Option (HubState C × List Nat) :=
  if st.modelStates.length ≠ new.modelStates.length then none            -- :387-389
  else some
    ({ modelStates := (List.range st.modelStates.length).map new.modelState  -- :396-398
       prev := new.prev                                                    -- :399
       nexts := []                                                         -- :395
       sym := new.sym                                                      -- :400
       hist := new.hist                                                    -- :401
       histSum := new.histSum },                                           -- :402
     (orderN st.nexts).map Prod.snd)                                       -- :390-394

/-- `LanguageModelHubState::VerifyOrCorrectModelStates`, language_model_hub.cc:357-366. The write
`model_states_[idx]` is checked. -/
def verifyOrCorrect (st : HubState C) (prev c : Int) (ms : List Int) :
    Except Fault (Bool × HubState C) :=
  if st.prev ≠ prev ∨ st.sym ≠ c then .ok (false, st)
  else if ms.length ≤ st.modelStates.length then
    .ok (true, { st with modelStates := ms ++ st.modelStates.drop ms.length })
  else .error .ub

/-- Body of the loop of `UpdateBayesianHistory` for one model, language_model_hub.cc:372-381:
`hist` and `prev` are the history rows of this state and of the previous one.  The accesses
`.back()` and `[hidx - 1]` are checked. -/
def histRow (A : Arith) (hist : List A.C) (lm : A.C) (prev : List A.C) :
    Except Fault (List A.C × A.C) :=
  match hist with
  | [] => .error .ub
  | _ :: _ =>
    if prev.length ≤ hist.length + 1 then
      .ok (prev.tail ++ (hist.dropLast ++ [lm]).drop prev.tail.length,
           prev.tail.foldl A.times lm)
    else .error .ub

/-- `LanguageModelHubState::UpdateBayesianHistory`, language_model_hub.cc:368-383, over the rows of
the models; every row access is checked. -/
def histRows (A : Arith) : List A.C → List (List A.C) → List A.C → List (List A.C) →
    Except Fault (List (List A.C) × List A.C)
  | [], hs, ss, _ => .ok (hs, ss)
  | lm :: lms, h :: hs, _ :: ss, p :: ps => do
    let r ← histRow A h lm p
    let rest ← histRows A lms hs ss ps
    .ok (r.1 :: rest.1, r.2 :: rest.2)
  | _ :: _, _, _, _ => .error .ub

end HubState

/-- `LanguageModelHub`, language_model_hub.h:198-206.  `selfRecycled` is a ghost: it records whether a
new state ever overwrote the very state it was created from; no code reads it. -/
structure Hub (A : Arith) (σ : Type) where
  states : List (HubState A.C)
  last : Nat
  max : Nat
  weights : List A.C
  hlen : Nat
  models : List σ
  selfRecycled : Bool

/-- `ModelHubConfig` (model_config.proto): mixture type (`none` = NONE, `interpolation` = INTERPOLATION,
anything else = an unknown enum value), weights of the model configs, history length, maximum. -/
inductive MixtureType where
  | none
  | interpolation
  | unknown
  deriving DecidableEq, Repr

structure HubConfig (C : Type) where
  mixture : MixtureType
  weights : List C
  bayesianHistoryLength : Int
  maxStates : Int

section
variable {A : Arith} {σ : Type}

/-- language_model_hub.cc:95-105: total by `NegLogSum`, then subtract. -/
def normalizeWeights (A : Arith) (ws : List A.C) : List A.C :=
  match ws with
  | [] => []
  | w :: ws' => (w :: ws').map fun x => A.over x (Scores.negLogSumFrom A w ws')

/-- `ResetPrevState` on each listed state, language_model_hub.cc:143-146 (checked index). -/
def resetPrevs (states : List (HubState A.C)) : List Nat → Except Fault (List (HubState A.C))
  | [] => .ok states
  | k :: ks =>
    match states[k]? with
    | some st => resetPrevs (states.set k st.resetPrev) ks
    | none => .error .ub

/-- `LanguageModelHub::UpdateHubState`, language_model_hub.cc:135-148.  `none`: error status. -/
def updateHubState (env : Env A σ) (h : Hub A σ) (idx : Nat) (ms : List Int) (prev sym : Int) :
    Except Fault (Option (Hub A σ)) :=
  match h.states[idx]? with
  | none => .error .ub
  | some st =>
    match st.updateHubState env.orderN (HubState.mk' A ms prev sym h.hlen) with
    | none => .ok none
    | some (st', olds) => do
      let states ← resetPrevs (h.states.set idx st') olds
      .ok (some { h with states := states })

/-- `InitializeStartHubState`, language_model_hub.cc:150-156. -/
def initializeStart (env : Env A σ) (h : Hub A σ) : Except Fault (Option (Hub A σ)) :=
  updateHubState env h 0 (h.models.map env.start) (-1) 0

/-- `InitializeModels`, language_model_hub.cc:77-126.  `none`: error status. -/
def initializeModels (env : Env A σ) (models : List σ) (cfg : HubConfig A.C) :
    Except Fault (Option (Hub A σ)) :=
  let go (weights : List A.C) (hlen : Nat) : Except Fault (Option (Hub A σ)) :=
    let h : Hub A σ :=
      { states := [HubState.mk' A (models.map fun _ => 0) (-1) 0 hlen]     -- :112-116
        last := 0, max := 0, weights, hlen, models, selfRecycled := false }
    do
      match ← initializeStart env h with                                   -- :117
      | none => .ok none
      | some h =>
        .ok (some { h with
          max := if cfg.maxStates < 10 then 10000 else cfg.maxStates.toNat -- :119-123
          last := 0 })                                                     -- :124
  match cfg.mixture with
  | .none => go [A.one] 0                                                  -- :81-84
  | .interpolation =>
    if cfg.weights.length < 2 then go [A.one] 0                            -- :86-89
    else go (normalizeWeights A cfg.weights) cfg.bayesianHistoryLength.toNat -- :91-105
  | .unknown => .ok none                                                   -- :108-109

/-- The id is that of an existing state: the test of lines 129, 183, 224, 246, 254, 299. -/
def Hub.valid (h : Hub A σ) (s : Int) : Bool := 0 ≤ s && s < (h.states.length : Int)

/-- `StateSym`, language_model_hub.cc:128-133. -/
def stateSym (h : Hub A σ) (s : Int) : Int :=
  if s < 0 then -1
  else match h.states[s.toNat]? with
    | some st => st.sym
    | none => -1

/-- Loop over the components calling `NextState` on the component state stored in `st`,
language_model_hub.cc:192-196 and 337-341. -/
def nextAll (ops : LMOps A σ) (st : HubState A.C) (c : Int) : Nat → List σ → List Int × List σ
  | _, [] => ([], [])
  | i, m :: ms =>
    let r := ops.next m (st.modelState i) c
    let rest := nextAll ops st c (i + 1) ms
    (r.1 :: rest.1, r.2 :: rest.2)

/-- Loop over the components calling `SymLMScore`, language_model_hub.cc:284-289. -/
def scoreAll (ops : LMOps A σ) (st : HubState A.C) (c : Int) : Nat → List σ → List A.C × List σ
  | _, [] => ([], [])
  | i, m :: ms =>
    let r := ops.symScore m (st.modelState i) c
    let rest := scoreAll ops st c (i + 1) ms
    (r.1 :: rest.1, r.2 :: rest.2)

/-- `UpdateBayesianHistory`, language_model_hub.cc:280-294. -/
def updateBayesianHistory (env : Env A σ) (h : Hub A σ) (s : Nat) : Except Fault (Hub A σ) :=
  if h.hlen = 0 then .ok h
  else
    match h.states[s]? with
    | none => .error .ub
    | some st =>
      if st.prev < 0 then .ok h
      else
        match h.states[st.prev.toNat]? with
        | none => .error .ub
        | some pst =>
          let r := scoreAll env.toLMOps pst st.sym 0 h.models
          match HubState.histRows A r.1 st.hist st.histSum pst.hist with
          | .error f => .error f
          | .ok (hist, histSum) =>
            .ok { h with states := h.states.set s { st with hist, histSum }, models := r.2 }

/-- `AssignNewHubState`, language_model_hub.cc:158-180.  `none`: error status (the hub afterwards is
still returned, since the error is not fatal). -/
def assignNew (env : Env A σ) (h : Hub A σ) (ms : List Int) (prev : Nat) (c : Int) :
    Except Fault (Option Nat × Hub A σ) :=
  let finish (h : Hub A σ) (idx : Nat) : Except Fault (Option Nat × Hub A σ) :=
    match h.states[prev]? with
    | none => .error .ub
    | some pst => do
      let h1 := { h with
        last := idx                                                        -- :176
        states := h.states.set prev (pst.addNextState c idx)               -- :177
        selfRecycled := h.selfRecycled || idx == prev }                    -- ghost
      let h2 ← updateBayesianHistory env h1 idx                            -- :178
      .ok (some idx, h2)
  let recycle (h : Hub A σ) (idx : Nat) : Except Fault (Option Nat × Hub A σ) := do
    match ← updateHubState env h idx ms prev c with                        -- :168
    | none => .ok (none, h)
    | some h => finish h idx
  if h.max ≤ h.states.length then                                          -- :161
    if h.max ≤ h.last + 1 then do                                          -- :162-163
      match ← initializeStart env h with                                   -- :165
      | none => .ok (none, h)
      | some h => recycle h 1                                              -- :166
    else recycle h (h.last + 1)
  else
    finish { h with states := h.states ++ [HubState.mk' A ms prev c h.hlen] } h.states.length -- :170-174

/-- `NextState`, language_model_hub.cc:182-202. -/
def nextState (env : Env A σ) (h : Hub A σ) (state : Int) (c : Int) :
    Except Fault (Int × Hub A σ) :=
  let s : Nat := if h.valid state then state.toNat else 0                  -- :183-186
  match h.states[s]? with
  | none => .error .ub
  | some st =>
    let nx := st.nextState c                                               -- :187
    if c < 0 ∨ 0 ≤ nx then .ok (nx, h)                                     -- :188-191
    else
      let r := nextAll env.toLMOps st c 0 h.models                         -- :192-196
      match assignNew env { h with models := r.2 } r.1 s c with            -- :197
      | .error f => .error f
      | .ok (some idx, h) => .ok ((idx : Int), h)                          -- :198-199
      | .ok (none, h) => .ok (0, h)                                        -- :201

/-- Loop of `ContextState`, language_model_hub.cc:210-217. -/
def contextLoop (env : Env A σ) (h : Hub A σ) (s : Int) : List Int → Except Fault (Int × Hub A σ)
  | [] => .ok (s, h)
  | c :: cs => do
    let r ← nextState env h s c
    contextLoop env r.2 (if r.1 < 0 then 0 else r.1) cs

/-- `ContextState`, language_model_hub.cc:204-220; the string is given by its code points
(`StrSplitByCharToUnicode`). -/
def contextState (env : Env A σ) (h : Hub A σ) (ctx : List Int) (init : Int) :
    Except Fault (Int × Hub A σ) :=
  contextLoop env h (if init < 0 then 0 else init) ctx

/-- `GetBayesianMixtureWeights`, language_model_hub.cc:222-242: checked access to the sums (:233). -/
def bayesianWeights (A : Arith) (ws sums : List A.C) : Except Fault (List A.C) :=
  if ws.length ≤ sums.length then
    .ok (normalizeWeights A (List.zipWith A.times ws sums))
  else .error .ub

/-- `GetMixtureWeights`, language_model_hub.cc:244-251 (with :224-227). -/
def getMixtureWeights (h : Hub A σ) (state : Int) (result : Bool) : Except Fault (List A.C) :=
  if !result || h.hlen == 0 || !h.valid state then .ok h.weights
  else match h.states[state.toNat]? with
    | none => .error .ub
    | some st => bayesianWeights A h.weights st.histSum

/-- `insert_or_assign` after combination in `MixResults`, language_model_hub.cc:40-43. -/
def mixInsert (A : Arith) (key : Str) (v : A.C) : List (Str × A.C) → List (Str × A.C)
  | [] => [(key, v)]
  | e :: l => if e.1 = key then (key, A.nls v e.2) :: l else e :: mixInsert A key v l

/-- Loop of `MixResults`, language_model_hub.cc:37-44; `symbols(i)` is checked. -/
def mixLoop (A : Arith) (w : A.C) : List A.D → List Str → List (Str × A.C) →
    Except Fault (List (Str × A.C))
  | [], _, acc => .ok acc
  | p :: ps, k :: ks, acc => mixLoop A w ps ks (mixInsert A k (A.times (A.cost p) w) acc)
  | _ :: _, [], _ => .error .ub

/-- `MixResults`, language_model_hub.cc:35-47. -/
def mixResults (A : Arith) (r : LMScores A.D) (w : A.C) (acc : List (Str × A.C)) :
    Except Fault (A.D × List (Str × A.C)) := do
  let acc ← mixLoop A w r.probs r.symbols acc
  .ok (A.dmul r.norm (A.prob w), acc)

/-- `std::sort` on (key, value) pairs with distinct keys, language_model_hub.cc:64: ascending keys. -/
def sortValues {C : Type} (l : List (Str × C)) : List (Str × C) :=
  l.mergeSort (fun a b => decide (a.1 ≤ b.1))

/-- `ExtractMixture`, language_model_hub.cc:49-72 (the response is empty before: the server and the
tests pass a fresh message). -/
def extractMixture (env : Env A σ) (mixed : List (Str × A.C)) (norm : A.D) : LMScores A.D :=
  let vs := env.orderV mixed                                               -- iteration order
  match vs with
  | [] => { symbols := [], probs := [], norm := norm }
  | v :: rest =>
    let tot := Scores.negLogSumFrom A v.2 (rest.map Prod.snd)              -- :55-62
    let sorted := sortValues vs                                            -- :64
    { symbols := sorted.map Prod.fst                                       -- :68
      probs := sorted.map fun e => A.prob (A.over e.2 tot)                 -- :69  exp(-v + norm)
      norm := norm }                                                       -- :71

/-- Loop of `ExtractLMScores`, language_model_hub.cc:264-273, over the mixture weights;
`language_models_[idx]` is checked.  `none`: `result` became false. -/
def extractLoop (env : Env A σ) (st : HubState A.C) :
    Nat → List A.C → List σ → List (Str × A.C) → A.D →
    Except Fault (Option (List (Str × A.C) × A.D) × List σ)
  | _, [], ms, acc, norm => .ok (some (acc, norm), ms)
  | _, _ :: _, [], _, _ => .error .ub
  | i, w :: ws, m :: ms, acc, norm =>
    match env.extract m (st.modelState i) with
    | (none, m') => .ok (none, m' :: ms)
    | (some r, m') => do
      let mr ← mixResults A r w acc
      let rest ← extractLoop env st (i + 1) ws ms mr.2 (A.dadd norm mr.1)
      .ok (rest.1, m' :: rest.2)

/-- `ExtractLMScores`, language_model_hub.cc:253-278.  `none`: returns false, response untouched
(by the hub; see :258 for the single-model case). -/
def extractLMScores (env : Env A σ) (h : Hub A σ) (state : Int) :
    Except Fault (Option (LMScores A.D) × Hub A σ) :=
  if !h.valid state then .ok (none, h)                                     -- :254, loop not entered
  else match h.states[state.toNat]? with
    | none => .error .ub
    | some st =>
      if h.weights.length < 2 then                                         -- :256-259
        match h.models with
        | [] => .error .ub
        | m :: ms =>
          let r := env.extract m (st.modelState 0)
          .ok (r.1, { h with models := r.2 :: ms })
      else do
        let ws ← getMixtureWeights h state true                            -- :263
        let r ← extractLoop env st 0 ws h.models [] (A.ofInt 0)            -- :264-273
        match r with
        | (none, ms) => .ok (none, { h with models := ms })
        | (some (mixed, norm), ms) =>
          .ok (some (extractMixture env mixed norm), { h with models := ms }) -- :274-276

/-- First loop of `UpdateLMCounts`, language_model_hub.cc:301-304. -/
def ensureStates (env : Env A σ) (h : Hub A σ) (s : Int) : List Int → Except Fault (Hub A σ)
  | [] => .ok h
  | c :: cs => do
    let r ← nextState env h s c
    ensureStates env r.2 r.1 cs

/-- Inner loop, language_model_hub.cc:310-312. -/
def historyEach (env : Env A σ) (h : Hub A σ) : List (Int × Nat) → Except Fault (Hub A σ)
  | [] => .ok h
  | e :: es => do
    let h ← updateBayesianHistory env h e.2
    historyEach env h es

/-- Second loop, language_model_hub.cc:307-314: `hub_states_[this_state]` is not checked by the code,
so an id that is not an existing state is undefined behaviour. -/
def historyLoop (env : Env A σ) (h : Hub A σ) (s : Int) : List Int → Except Fault (Hub A σ)
  | [] => .ok h
  | c :: cs =>
    if s < 0 then .error .ub
    else match h.states[s.toNat]? with
      | none => .error .ub
      | some st => do
        let h ← historyEach env h (env.orderN st.nexts)
        let r ← nextState env h s c
        historyLoop env r.2 r.1 cs

/-- Third loop, language_model_hub.cc:316-321, over `mixture_weights_`; checked model access. -/
def updateLoop (env : Env A σ) (st : HubState A.C) (cs : List Int) (count : Int) :
    Nat → List A.C → List σ → Except Fault (Bool × List σ)
  | _, [], ms => .ok (true, ms)
  | _, _ :: _, [] => .error .ub
  | i, _ :: ws, m :: ms =>
    match env.update m (st.modelState i) cs count with
    | (false, m') => .ok (false, m' :: ms)
    | (true, m') => do
      let r ← updateLoop env st cs count (i + 1) ws ms
      .ok (r.1, m' :: r.2)

/-- `VerifyOrCorrectModelStates`, language_model_hub.cc:328-355. -/
def verifyLoop (env : Env A σ) (h : Hub A σ) (s : Nat) : List Int → Except Fault (Bool × Hub A σ)
  | [] => .ok (true, h)
  | c :: cs =>
    match h.states[s]? with
    | none => .error .ub
    | some st =>
      match HubState.lookup st.nexts c with
      | none => .ok (true, h)                                              -- :344-348
      | some k =>
        let r := nextAll env.toLMOps st c 0 h.models                       -- :337-341
        match h.states[k]? with
        | none => .error .ub
        | some kst => do
          let v ← kst.verifyOrCorrect s c r.1                              -- :342-343
          let h := { h with states := h.states.set k v.2, models := r.2 }
          if v.1 then verifyLoop env h k cs                                -- :352
          else .ok (false, h)                                              -- :349-351

/-- `UpdateLMCounts`, language_model_hub.cc:296-326. -/
def updateLMCounts (env : Env A σ) (h : Hub A σ) (state : Int) (cs : List Int) (count : Int) :
    Except Fault (Bool × Hub A σ) := do
  let result := h.valid state                                              -- :299
  let h ← ensureStates env h state cs                                      -- :301-304
  let h ← (if 0 < h.hlen then historyLoop env h state cs else .ok h)       -- :305-315
  if result then
    match h.states[state.toNat]? with
    | none => .error .ub
    | some st => do
      let r ← updateLoop env st cs count 0 h.weights h.models              -- :316-321
      let h := { h with models := r.2 }
      if r.1 then verifyLoop env h state.toNat cs                          -- :322-324
      else .ok (false, h)
  else .ok (false, h)

/-- A call of the hub's API. -/
inductive Call where
  | next (s c : Int)
  | context (cs : List Int) (s : Int)
  | extract (s : Int)
  | update (s : Int) (cs : List Int) (count : Int)

/-- The effect of one call on the hub. -/
def step (env : Env A σ) (h : Hub A σ) : Call → Except Fault (Hub A σ)
  | .next s c => do let r ← nextState env h s c; .ok r.2
  | .context cs s => do let r ← contextState env h cs s; .ok r.2
  | .extract s => do let r ← extractLMScores env h s; .ok r.2
  | .update s cs n => do let r ← updateLMCounts env h s cs n; .ok r.2

/-- The effect of a history of calls. -/
def run (env : Env A σ) (h : Hub A σ) : List Call → Except Fault (Hub A σ)
  | [] => .ok h
  | c :: cs => do let h ← step env h c; run env h cs

end
end Mozolm.Hub
