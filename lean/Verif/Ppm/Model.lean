import Verif.Fst

/-!
# Model of `mozolm/models/ppm_as_fst_model.{h,cc}`

State ids are signed; every vector or state access of the code that has no bounds check is checked in
the model and gives `Fault.ub` when out of range (the theorems show when that cannot happen).
`absl::Status` errors are `none`.  Loops and recursion along the backoff chain take fuel.
Simplifications: `int` counters do not overflow; the automaton is an acceptor; `float` weights and
`double`s are one type of costs (`Arith`); logging and timing are left out.
-/

namespace Mozolm.Ppm

/-- `absl::StatusOr<α>` results of the code: a fault, an error status (`none`) or a value. -/
def Res (α : Type) := Except Fault (Option α)

instance : Monad Res where
  pure a := .ok (some a)
  bind x f :=
    match x with
    | .error e => .error e
    | .ok none => .ok none
    | .ok (some a) => f a

/-- an error status -/
def Res.fail {α : Type} : Res α := .ok none

/-- a faulty execution -/
def Res.fault {α : Type} (e : Fault) : Res α := .error e

/-- access that is undefined when out of range -/
def Res.need {α : Type} : Option α → Res α
  | some a => .ok (some a)
  | none => .error .ub

section Automaton
variable (A : Arith)

/-- `impl::GetBackoffState`, ppm_as_fst_model.cc:64-75. The first arc is read without checking that
there is one. -/
def getBackoffState {C : Type} (f : Fst C) (s : Int) : Res Int :=
  match f.state? s with
  | none => pure (-1)                                                       -- :65-66
  | some st =>
    match st.arcs with
    | [] => .fault .ub                                                      -- :69
    | a :: _ => pure (if a.label = 0 then (a.next : Int) else -1)           -- :70-72

/-- `impl::NoObservations`, ppm_as_fst_model.cc:210-219. -/
def noObservations (f : Fst A.C) (s : Int) : Res Bool :=
  match f.state? s with
  | none => .fault .ub
  | some st =>
    match st.arcs with
    | [] => .fault .ub                                                      -- :212
    | a :: _ => pure (A.isInf st.final && (st.arcs.length == 1) && (a.label == 0))

/-- replacing a state -/
def setState {C : Type} (f : Fst C) (s : Int) (st : FState C) : Fst C :=
  { f with states := f.states.set s.toNat st }

/-- `impl::IncrementBackoffArcReturnBackoffState`, ppm_as_fst_model.cc:224-238. -/
def incrementBackoffArc (f : Fst A.C) (s : Int) : Res (Fst A.C × Int) := do
  let no ← noObservations A f s                                             -- :226
  match f.state? s with
  | none => .fault .ub
  | some st =>
    match st.arcs with
    | [] => .fault .ub
    | a :: rest =>
      if a.label = 0 then                                                   -- :230
        if no then pure (f, (a.next : Int))
        else
          let a' := { a with weight := A.nls a.weight A.one }               -- :233
          pure (setState f s { st with arcs := a' :: rest }, (a.next : Int))
      else pure (f, -1)

/-- `impl::GetTotalStateCount`, ppm_as_fst_model.cc:241-254, from the final weight on. -/
def totalFrom (acc : A.C) : List (Arc A.C) → A.C
  | [] => acc
  | a :: as => if a.label = 0 then a.weight else totalFrom (A.nls acc a.weight) as

/-- `impl::UpdateIndexProb`, ppm_as_fst_model.cc:257-278. -/
def updateIndexProb (count negLogBeta denominator lower : A.C) (atUnigram : Bool) : Option A.C :=
  if atUnigram then some (A.over count denominator)                         -- :265
  else if A.ge count negLogBeta then none                                   -- :271-273
  else some (A.nls lower (A.over (A.nld count negLogBeta) denominator))     -- :274-275

/-- The vectors cached for a state, ppm_as_fst_model.h:148-152. -/
structure Data (C : Type) where
  /-- `arc_origin_states_` -/
  origin : List Int
  /-- `destination_states_` -/
  dest : List Int
  /-- `neg_log_probabilities_` -/
  costs : List C
  /-- `normalization_` -/
  norm : C
  deriving Repr, DecidableEq

/-- The vectors of `PpmStateCache(state)`, ppm_as_fst_model.h:94-97; `normalization_` is not set there
and never read before it is. -/
def Data.empty : Data A.C := { origin := [], dest := [], costs := [], norm := A.one }

/-- One assignment of `UpdateCacheStatesAndProbs`, ppm_as_fst_model.cc:619-626 and :638-645. -/
def setEntry (beta : A.D) (denominator : A.C) (atUnigram : Bool) (s next : Int) (count : A.C) (i : Nat)
    (d : Data A.C) : Res (Data A.C) :=
  if i < d.origin.length ∧ i < d.dest.length then
    match d.costs[i]? with
    | none => .fault .ub
    | some lower =>
      match updateIndexProb A count (A.cost beta) denominator lower atUnigram with
      | none => .fail
      | some p => pure { d with
          origin := d.origin.set i s
          dest := d.dest.set i next
          costs := d.costs.set i p }
  else .fault .ub

/-- The loop of `UpdateCacheStatesAndProbs`, ppm_as_fst_model.cc:630-647. -/
def fillArcs (beta : A.D) (denominator : A.C) (atUnigram : Bool) (s : Int) :
    List (Arc A.C) → Data A.C → Res (Data A.C)
  | [], d => pure d
  | a :: as, d =>
    if a.label > 0 then                                                     -- :633
      if a.label ≥ d.origin.length then .fail                               -- :635-637
      else do
        let d' ← setEntry A beta denominator atUnigram s a.next a.weight a.label.toNat d
        fillArcs beta denominator atUnigram s as d'
    else fillArcs beta denominator atUnigram s as d

/-- The end-of-string part of `UpdateCacheStatesAndProbs`, ppm_as_fst_model.cc:617-629. -/
def finalEntry (f : Fst A.C) (beta : A.D) (denominator : A.C) (s bo : Int) (st : FState A.C)
    (d : Data A.C) : Res (Data A.C) :=
  if A.isInf st.final then
    if bo < 0 then .fail else pure d                                        -- :627-629
  else setEntry A beta denominator (bo < 0) s f.start st.final 0 d          -- :617-626

/-- `UpdateCacheStatesAndProbs`, ppm_as_fst_model.cc:613-649. -/
def updateStatesAndProbs (f : Fst A.C) (beta : A.D) (denominator : A.C) (s bo : Int) (st : FState A.C)
    (d : Data A.C) : Res (Data A.C) := do
  let d ← finalEntry A f beta denominator s bo st d
  let d ← fillArcs A beta denominator (bo < 0) s st.arcs d
  match Scores.softmaxRenormalize A d.costs with                            -- :648
  | .error e => .fault e
  | .ok costs => pure { d with costs }

/-- `gamma` of `InitCacheProbs`, ppm_as_fst_model.cc:596-602. -/
def gammaOf (alpha beta : A.D) (denominator : A.C) (st : FState A.C) : A.C :=
  let n : Int := if A.isInf st.final then st.arcs.length - 1 else st.arcs.length
  A.over (A.nls (A.times (A.cost (A.ofInt n)) (A.cost beta)) (A.cost alpha)) denominator

/-- `InitCacheStates` and `InitCacheProbs`, ppm_as_fst_model.cc:573-611. -/
def initData (alpha beta : A.D) (denominator : A.C) (bo : Int) (st : FState A.C) (bd : Data A.C) :
    Data A.C :=
  if bo ≥ 0 then
    { origin := bd.origin
      dest := bd.dest
      costs := bd.costs.map fun c => A.times c (gammaOf A alpha beta denominator st)
      norm := denominator }
  else
    { origin := List.replicate (st.arcs.length + 1) 0
      dest := List.replicate (st.arcs.length + 1) 0
      costs := List.replicate (st.arcs.length + 1) A.one
      norm := denominator }

/-- `denominator` of `UpdateCacheAtNonEmptyState`, ppm_as_fst_model.cc:659-660. -/
def denominatorOf (alpha : A.D) (st : FState A.C) : A.C :=
  A.nls (totalFrom A st.final st.arcs) (A.cost alpha)

/-- What `UpdateCacheAtState` stores for a state, given its backoff state and the vectors of that:
ppm_as_fst_model.cc:689-698 and :651-666. -/
def stateData (f : Fst A.C) (alpha beta : A.D) (s bo : Int) (bd : Data A.C) : Res (Data A.C) := do
  let no ← noObservations A f s                                             -- :689
  if no then pure bd                                                        -- :696, :1001-1009
  else
    match f.state? s with
    | none => .fault .ub
    | some st =>
      let den := denominatorOf A alpha st
      updateStatesAndProbs A f beta den s bo st (initData A alpha beta den bo st bd)

end Automaton

/-- The automaton of counts with the context orders. -/
structure Core (C : Type) where
  /-- `fst_` -/
  fst : Fst C
  /-- `state_orders_` -/
  orders : List Int
  /-- `max_order_` -/
  maxOrder : Int
  deriving Repr, DecidableEq

section Counts
variable (A : Arith)

/-- `state_orders_[s]` -/
def orderOf {C : Type} (c : Core C) (s : Int) : Res Int :=
  if s < 0 then .fault .ub else .need c.orders[s.toNat]?

/-- `NeedsNewState`, ppm_as_fst_model.cc:703-719. -/
def needsNewState {C : Type} (c : Core C) (curr next : Int) : Res Bool := do
  let on ← orderOf c next
  let oc ← orderOf c curr
  if on > oc then pure false                                                -- :706-709
  else if on ≠ oc then .fail                                                -- :710-713
  else if on + 1 ≥ c.maxOrder then pure false                               -- :714-717
  else pure true

/-- `AddNewState`, ppm_as_fst_model.cc:814-828, called with a non-negative state (the `cache_index_`
part is in `Ppm.setCore`). -/
def addNewState (c : Core A.C) (bo : Nat) : Res (Core A.C × Nat) := do
  let new := c.fst.states.length
  if new ≠ c.orders.length then .fail                                       -- :817-819
  else
    let ob ← orderOf c bo
    pure ({ c with
      fst := { c.fst with
        states := c.fst.states ++ [⟨A.inf, [⟨0, A.one, bo⟩]⟩] }             -- :816, :824-825
      orders := c.orders ++ [ob + 1] }, new)                                -- :820-821

/-- The search loop of `UpdateHighestFoundState`, ppm_as_fst_model.cc:841-862: the arcs before the
first one with the label, that arc, and the arcs after it. -/
def splitArc {C : Type} (label : Int) : List (Arc C) → Option (List (Arc C) × Arc C × List (Arc C))
  | [] => none
  | a :: as =>
    if a.label = label then some ([], a, as)
    else match splitArc label as with
      | none => none
      | some (pre, x, post) => some (a :: pre, x, post)

/-- `UpdateHighestFoundState`, ppm_as_fst_model.cc:830-873. -/
def updateHighestFound (c : Core A.C) (curr sym : Int) : Res (Core A.C) :=
  match c.fst.state? curr with
  | none => .fault .ub
  | some st =>
    if sym = 0 then
      pure { c with fst := setState c.fst curr { st with final := A.nls st.final A.one } }  -- :834-835
    else
      match splitArc sym st.arcs with
      | none => .fail                                                       -- :863-865
      | some (pre, a, post) => do
        let needs ← needsNewState c curr a.next                             -- :849-853
        let next := if needs then c.orders.length else a.next               -- :854-857
        let a' := { a with
          weight := A.nls a.weight A.one                                    -- :858
          next := next }
        let c' := { c with fst := setState c.fst curr { st with arcs := pre ++ a' :: post } }
        if needs then do
          let r ← addNewState A c' a.next                                   -- :866-870
          pure r.1
        else pure c'

/-- The destination of the new arc in `UpdateNotFoundState`, ppm_as_fst_model.cc:890-897. -/
def newDestination (c : Core A.C) (needs : Bool) (backoffDest : Int) : Res (Core A.C × Nat) :=
  if needs then addNewState A c backoffDest.toNat                           -- :891-896
  else pure (c, backoffDest.toNat)                                          -- :890

/-- The part of `UpdateNotFoundState` after the recursive call, ppm_as_fst_model.cc:881-901. -/
def updateNotFound (c : Core A.C) (curr backoffDest sym : Int) : Res (Core A.C) :=
  if sym = 0 then
    match c.fst.state? curr with
    | none => .fault .ub
    | some st => pure { c with fst := setState c.fst curr { st with final := A.one } }     -- :882
  else do
    let needs ← needsNewState c curr backoffDest                            -- :885-889
    let r ← newDestination A c needs backoffDest
    match r.1.fst.state? curr with
    | none => .fault .ub
    | some st =>
      pure { r.1 with
        fst := setState r.1.fst curr
          { st with arcs := st.arcs ++ [⟨sym, A.one, r.2⟩] } }              -- :898-899

end Counts

/-- `PpmStateCache`, ppm_as_fst_model.h:88-153. -/
structure Entry (C : Type) where
  state : Int
  /-- `last_accessed_` -/
  accessed : Int
  /-- `last_updated_` -/
  updated : Int
  data : Data C
  deriving Repr, DecidableEq

/-- `PpmAsFstModel`, ppm_as_fst_model.h:292-308. -/
structure Model (A : Arith) where
  core : Core A.C
  /-- `alpha_` -/
  alpha : A.D
  /-- `beta_` -/
  beta : A.D
  /-- `static_model_` -/
  static : Bool
  /-- `syms_`, and the input symbols of `fst_`, which hold the same table -/
  symbols : SymbolTable
  /-- `max_cache_size_` -/
  maxCache : Int
  /-- `cache_accessed_` -/
  counter : Int
  /-- `cache_index_` -/
  index : List Int
  /-- `state_cache_` -/
  cache : List (Entry A.C)

/-- Member functions: fault, or status with the model afterwards. -/
def PM (A : Arith) (α : Type) := Model A → Except Fault (Option α × Model A)

namespace PM
variable {A : Arith} {α β : Type}

instance : Monad (PM A) where
  pure a := fun m => .ok (some a, m)
  bind x f := fun m =>
    match x m with
    | .error e => .error e
    | .ok (none, m') => .ok (none, m')
    | .ok (some a, m') => f a m'

/-- return an error status -/
def fail : PM A α := fun m => .ok (none, m)

/-- a computation that only reads the model -/
def reads (g : Model A → Res α) : PM A α := fun m =>
  match g m with
  | .error e => .error e
  | .ok none => .ok (none, m)
  | .ok (some a) => .ok (some a, m)

/-- a computation that cannot return an error status -/
def total (f : Model A → Except Fault (α × Model A)) : PM A α := fun m =>
  match f m with
  | .error e => .error e
  | .ok (a, m') => .ok (some a, m')

/-- assignment to members -/
def modify (g : Model A → Model A) : PM A Unit := fun m => .ok (some (), g m)

end PM

section Members
variable {A : Arith}

/-- `cache_index_[s]` -/
def indexOf (m : Model A) (s : Int) : Res Int :=
  if s < 0 then .fault .ub else .need m.index[s.toNat]?

/-- `state_cache_[i]` -/
def entryAt (m : Model A) (i : Int) : Res (Entry A.C) :=
  if i < 0 then .fault .ub else .need m.cache[i.toNat]?

/-- `fst_` and `state_orders_` changed; `cache_index_` gets `-1` for each new state
(ppm_as_fst_model.cc:822). -/
def Model.setCore (m : Model A) (c : Core A.C) : Model A :=
  { m with
    core := c
    index := m.index ++ List.replicate (c.fst.states.length - m.index.length) (-1) }

/-- The loop of `FindOldestLastAccessedCache`, ppm_as_fst_model.cc:547-552: next position, best
position and its access time. -/
def oldestFrom {C : Type} (i best : Nat) (oldest : Int) : List (Entry C) → Nat
  | [] => best
  | e :: es =>
    if e.accessed < oldest then oldestFrom (i + 1) i e.accessed es
    else oldestFrom (i + 1) best oldest es

/-- `FindOldestLastAccessedCache`, ppm_as_fst_model.cc:544-554. -/
def findOldest {C : Type} : List (Entry C) → Res Nat
  | [] => .fault .ub                                                        -- :546
  | e :: es => pure (oldestFrom 1 0 e.accessed es)

/-- `PpmStateCache(s)`, ppm_as_fst_model.h:94-97. -/
def Entry.new (A : Arith) (s : Int) : Entry A.C :=
  { state := s, accessed := -1, updated := -1, data := Data.empty A }

/-- `GetNewCacheIndex`, ppm_as_fst_model.cc:556-571. -/
def getNewCacheIndex (s : Int) : PM A Unit := fun m =>
  if (m.cache.length : Int) < m.maxCache then                               -- :557
    .ok (some (), { m with
      index := m.index.set s.toNat m.cache.length                           -- :558
      cache := m.cache ++ [Entry.new A s] })                                -- :559
  else
    match findOldest m.cache with                                           -- :561
    | .error e => .error e
    | .ok none => .ok (none, m)
    | .ok (some i) =>
      match m.cache[i]? with                                                -- :562
      | none => .error .ub
      | some old =>
        match indexOf m old.state with
        | .error e => .error e
        | .ok none => .ok (none, m)
        | .ok (some j) =>
          if j ≠ i then .ok (none, m)                                       -- :563-565
          else .ok (some (), { m with
            index := (m.index.set old.state.toNat (-1)).set s.toNat i       -- :566, :568
            cache := m.cache.set i (Entry.new A s) })                       -- :567

/-- `if (cache_index_[s] < 0) GetNewCacheIndex(s)`, ppm_as_fst_model.cc:667-669, :692-695. -/
def ensureIndex (i s : Int) : PM A Unit := if i < 0 then getNewCacheIndex s else pure ()

/-- Storing the vectors of a state: `GetNewCacheIndex` if it has no entry, then `UpdateCache`,
ppm_as_fst_model.cc:667-673, :692-696, :1001-1021. -/
def store (s : Int) (d : Data A.C) : PM A Unit := do
  let i ← PM.reads fun m => indexOf m s
  ensureIndex i s
  let i ← PM.reads fun m => indexOf m s
  let e ← PM.reads fun m => entryAt m i
  PM.modify fun m => { m with
    cache := m.cache.set i.toNat { e with
      accessed := m.counter
      updated := m.counter
      data := d }
    counter := m.counter + 1 }

/-- `backoff_cache` of `UpdateCacheAtState`, ppm_as_fst_model.cc:685-688. -/
def backoffData (ensure : Int → PM A (Entry A.C)) (bo : Int) : PM A (Data A.C) :=
  if bo ≥ 0 then do
    let e ← ensure bo
    pure e.data
  else pure (Data.empty A)

/-- `UpdateCacheAtState`, ppm_as_fst_model.cc:677-701, with `EnsureCacheAtState` as a parameter. -/
def updateCacheAtStateWith (ensure : Int → PM A (Entry A.C)) (s : Int) : PM A Unit := do
  let n ← PM.reads fun m => pure m.core.fst.states.length
  if s < 0 then PM.fail                                                     -- :678-680
  else if s ≥ (n : Int) then PM.fail                                        -- :681-683
  else do
    let bo ← PM.reads fun m => getBackoffState m.core.fst s                 -- :684
    let bd ← backoffData ensure bo
    let d ← PM.reads fun m => stateData A m.core.fst m.alpha m.beta s bo bd
    store s d

/-- The test in the loop of `LowerOrderCacheUpdated`, ppm_as_fst_model.cc:725-727. -/
def newer (m : Model A) (lastUpdated i : Int) : Res Bool :=
  if i ≥ 0 then do
    let e ← entryAt m i
    pure (decide (e.updated > lastUpdated))
  else pure false

/-- The loop of `LowerOrderCacheUpdated`, ppm_as_fst_model.cc:724-732. -/
def lowerLoop (m : Model A) (lastUpdated : Int) : Nat → Int → Res Bool
  | 0, _ => .fault .fuel
  | n + 1, b =>
    if b < 0 then pure false
    else do
      let i ← indexOf m b
      let hit ← newer m lastUpdated i
      if hit then pure true
      else do
        let b' ← getBackoffState m.core.fst b
        lowerLoop m lastUpdated n b'

/-- `LowerOrderCacheUpdated`, ppm_as_fst_model.cc:721-734. -/
def lowerOrderCacheUpdated (fuel : Nat) (m : Model A) (s : Int) : Res Bool := do
  let i ← indexOf m s
  if i < 0 then pure true
  else do
    let e ← entryAt m i
    let b ← getBackoffState m.core.fst s
    lowerLoop m e.updated fuel b

/-- a conditional statement -/
def whenM (b : Bool) (x : PM A Unit) : PM A Unit := if b then x else pure ()

/-- `EnsureCacheAtState`, ppm_as_fst_model.cc:736-757. The test `cache_index_[s] < 0 ||` of :739 is
repeated by `LowerOrderCacheUpdated`. -/
def ensureCache : Nat → Int → PM A (Entry A.C)
  | 0, _ => fun _ => .error .fuel
  | n + 1, s => do
    let stale ← PM.reads fun m => lowerOrderCacheUpdated n m s              -- :739
    whenM stale (updateCacheAtStateWith (ensureCache n) s)                  -- :740
    let i ← PM.reads fun m => indexOf m s
    let size ← PM.reads fun m => pure m.cache.length
    if i < 0 then PM.fail                                                   -- :744-746
    else if i ≥ (size : Int) then PM.fail                                   -- :747-749
    else do
      let e ← PM.reads fun m => entryAt m i
      if e.state ≠ s then PM.fail                                           -- :750-752
      else if stale then pure e
      else do
        let k ← PM.reads fun m => pure m.counter
        PM.modify fun m => { m with
          cache := m.cache.set i.toNat { e with accessed := k }             -- :754
          counter := m.counter + 1 }
        pure { e with accessed := k }

/-- Enough fuel for every chain of backoffs of a well-formed model. -/
def Model.fuel (m : Model A) : Nat := m.core.maxOrder.toNat + 2

/-- `EnsureCacheAtState` with enough fuel. -/
def ensureCacheAtState (s : Int) : PM A (Entry A.C) := fun m => ensureCache m.fuel s m

/-- `UpdateCacheAtState` with enough fuel. -/
def updateCacheAtState (s : Int) : PM A Unit := updateCacheAtStateWith ensureCacheAtState s

/-- `VerifyAccess` and the access, ppm_as_fst_model.cc:1023-1064. -/
def verified {α : Type} (v : List α) (i : Int) : Res α :=
  if i < 0 then .fail                                                       -- :1026-1028
  else if i ≥ v.length then .fail                                           -- :1029-1031
  else .need v[i.toNat]?

/-- `GetNegLogProb`, ppm_as_fst_model.cc:759-764. -/
def getNegLogProb (s sym : Int) : PM A A.C := do
  let e ← ensureCacheAtState s
  PM.reads fun _ => verified e.data.costs sym

/-- `GetNormalization`, ppm_as_fst_model.cc:766-770. -/
def getNormalization (s : Int) : PM A A.C := do
  let e ← ensureCacheAtState s
  pure e.data.norm

/-- `GetArcOriginState`, ppm_as_fst_model.cc:800-805. -/
def getArcOriginState (s sym : Int) : PM A Int := do
  let e ← ensureCacheAtState s
  PM.reads fun _ => verified e.data.origin sym

/-- `GetDestinationState`, ppm_as_fst_model.cc:807-812. -/
def getDestinationState (s sym : Int) : PM A Int := do
  let e ← ensureCacheAtState s
  PM.reads fun _ => verified e.data.dest sym

/-- `UpdateHighestFoundState` or `UpdateNotFoundState`, ppm_as_fst_model.cc:911-916; `lower` is the
recursive call of :878-880. -/
def updateCounts (lower : PM A Int) (curr highest sym : Int) : PM A Unit :=
  if highest = curr then do                                                 -- :911-912
    let c ← PM.reads fun m => updateHighestFound A m.core curr sym
    PM.modify fun m => m.setCore c
  else do                                                                   -- :914-915
    let dest ← lower
    let c ← PM.reads fun m => updateNotFound A m.core curr dest sym
    PM.modify fun m => m.setCore c

/-- `UpdateModel`, ppm_as_fst_model.cc:905-924, with `UpdateNotFoundState` :875-903 inlined. -/
def updateModel : Nat → Int → Int → Int → PM A Int
  | 0, _, _, _ => fun _ => .error .fuel
  | n + 1, curr, highest, sym => do
    let r ← PM.reads fun m => incrementBackoffArc A m.core.fst curr         -- :909-910
    PM.modify fun m => m.setCore { m.core with fst := r.1 }
    updateCounts (updateModel n r.2 highest sym) curr highest sym           -- :911-916
    updateCacheAtState curr                                                 -- :918
    getDestinationState curr sym                                            -- :920

/-- `UpdateModel` with enough fuel. -/
def observe (curr highest sym : Int) : PM A Int := fun m => updateModel m.fuel curr highest sym m

/-- `GetNegLogProbs`, ppm_as_fst_model.cc:772-798; costs in nats. -/
def getNegLogProbsFrom (s : Int) : List Int → PM A (List A.C)
  | [] => pure []
  | y :: ys => do
    let c ← getNegLogProb s y                                               -- :777-778
    let static ← PM.reads fun m => pure m.static
    whenM (!static) (do                                                     -- :780-789
      let o ← getArcOriginState s y
      let _ ← observe s o y
      pure ())
    let d ← getDestinationState s y                                         -- :790-795
    let cs ← getNegLogProbsFrom d ys
    pure (c :: cs)

/-- `GetNegLogProbs` from the start state. -/
def getNegLogProbs (syms : List Int) : PM A (List A.C) := fun m =>
  getNegLogProbsFrom m.core.fst.start syms m

/-- Results of the public functions that turn an error status into a default value. -/
def orElse {α β : Type} (x : PM A α) (some' : α → β) (none' : Model A → Except Fault β) :
    Model A → Except Fault (β × Model A) := fun m =>
  match x m with
  | .error e => .error e
  | .ok (some a, m') => .ok (some' a, m')
  | .ok (none, m') =>
    match none' m' with
    | .error e => .error e
    | .ok b => .ok (b, m')

/-- the unigram state, ppm_as_fst_model.cc:937 -/
def unigramState (m : Model A) : Except Fault Int :=
  match getBackoffState m.core.fst m.core.fst.start with
  | .error e => .error e
  | .ok none => .ok (-1)
  | .ok (some u) => .ok u

/-- `NextState`, ppm_as_fst_model.cc:926-938. `encode` is `nisaba::utf8::EncodeUnicodeChar`. -/
def nextState (encode : Int → Str) (s sym : Int) (m : Model A) : Except Fault (Int × Model A) :=
  let idx := m.symbols.findLabel (encode sym)
  if idx > 0 then orElse (getDestinationState s idx) id unigramState m
  else orElse PM.fail id unigramState m

/-- `FillLMScores`, ppm_as_fst_model.cc:1066-1080. -/
def fillLMScores (symbols : SymbolTable) (d : Data A.C) : Res (LMScores A.D) :=
  match d.costs with
  | [] => .fault .ub                                                        -- :1074
  | c :: cs => pure {
      symbols := [] :: (List.range cs.length).map fun (i : Nat) => symbols.findSymbol ((i : Int) + 1)
      probs := A.prob c :: cs.map A.prob
      norm := A.prob d.norm }

/-- `ExtractLMScores`, ppm_as_fst_model.cc:940-945; `none`: false. -/
def extractLMScores (s : Int) (m : Model A) : Except Fault (Option (LMScores A.D) × Model A) :=
  orElse (do
    let e ← ensureCacheAtState s
    PM.reads fun m => fillLMScores m.symbols e.data) some (fun _ => .ok none) m

/-- `SymLMScore`, ppm_as_fst_model.cc:947-964. -/
def symLMScore (encode : Int → Str) (s sym : Int) (m : Model A) : Except Fault (A.C × Model A) :=
  let idx := if sym = 0 then 0 else m.symbols.findLabel (encode sym)
  if idx ≥ 0 then orElse (getNegLogProb s idx) id (fun _ => .ok A.inf) m
  else .ok (A.inf, m)

/-- The loop of further observations, ppm_as_fst_model.cc:989-993. -/
def observeAgain (s sym : Int) : Nat → PM A Unit
  | 0 => pure ()
  | k + 1 => do
    let _ ← observe s s sym
    observeAgain s sym k

/-- symbol index of `UpdateLMCounts`, ppm_as_fst_model.cc:975-979 -/
def symIndex (encode : Int → Str) (symbols : SymbolTable) (sym : Int) : Int :=
  if sym > 0 then symbols.findLabel (encode sym) else sym

/-- One symbol of `UpdateLMCounts`, ppm_as_fst_model.cc:974-996: the next state. `start_state()` is
`fst_->Start()` (:519). -/
def updateSymbol (encode : Int → Str) (count : Int) (s sym : Int) : PM A Int := do
  let idx ← PM.reads fun m => pure (symIndex encode m.symbols sym)
  if idx < 0 then PM.reads fun m => pure (m.core.fst.start : Int)           -- :980-983
  else do
    let o ← getArcOriginState s idx                                         -- :985-986
    let _ ← observe s o idx                                                 -- :987-989
    observeAgain s idx (count - 1).toNat                                    -- :990-994
    PM.total (nextState encode s sym)                                       -- :995

/-- The loop of `UpdateLMCounts`. -/
def updateSymbols (encode : Int → Str) (count : Int) (s : Int) : List Int → PM A Unit
  | [] => pure ()
  | y :: ys => do
    let t ← updateSymbol encode count s y
    updateSymbols encode count t ys

/-- `UpdateLMCounts`, ppm_as_fst_model.cc:966-999. -/
def updateLMCounts (encode : Int → Str) (s : Int) (syms : List Int) (count : Int) (m : Model A) :
    Except Fault (Bool × Model A) :=
  if m.static || decide (count ≤ 0) then .ok (true, m)                      -- :970-973
  else orElse (updateSymbols encode count s syms) (fun _ => true) (fun _ => .ok false) m

end Members
end Mozolm.Ppm
