import Verif.Ppm.Model

/-!
# Model of `PpmAsFstModel::Read`

`mozolm/models/ppm_as_fst_model.cc:455-542` and the functions it uses.  Files are given by their
contents (`none`: cannot be read); lines of the vocabulary are given as lists of characters
(`StrSplitByChar`).  Training from text (`TrainFromText`) is in `Train.lean`; here its result is an
arbitrary automaton with a symbol table.
-/

namespace Mozolm.Ppm

section
variable (A : Arith)

/-- `impl::MakeEmpty`, ppm_as_fst_model.cc:54-61. -/
def makeEmpty : Fst A.C :=
  { start := 0
    states := [⟨A.inf, [⟨0, A.one, 1⟩]⟩, ⟨A.one, []⟩] }

/-- The key `SymbolTable::AddSymbol` gives to a new symbol (OpenFst: one above the largest so far). -/
def nextLabel : SymbolTable → Int
  | [] => 0
  | e :: t => max (e.1 + 1) (nextLabel t)

/-- Adding an arc to the unigram state, ppm_as_fst_model.cc:302-303. -/
def addUnigramArc (f : Fst A.C) (u : Nat) (idx : Int) : Res (Fst A.C) :=
  match f.states[u]? with
  | none => .fault .ub
  | some st => pure (setState f u { st with arcs := st.arcs ++ [⟨idx, A.one, u⟩] })

/-- The loop of `AddExtraCharacters`, ppm_as_fst_model.cc:296-305. -/
def addChars (u : Nat) : List Str → Fst A.C × SymbolTable → Res (Fst A.C × SymbolTable)
  | [], r => pure r
  | c :: cs, (f, t) =>
    if t.findLabel c < 0 then do                                            -- :297
      let f' ← addUnigramArc A f u (nextLabel t)
      addChars u cs (f', t ++ [(nextLabel t, c)])                           -- :298-303
    else addChars u cs (f, t)

/-- `AddExtraCharacters`, ppm_as_fst_model.cc:288-307. -/
def addExtraCharacters (line : List Str) (r : Fst A.C × SymbolTable) : Res (Fst A.C × SymbolTable) := do
  let u ← getBackoffState r.1 r.1.start                                     -- :291
  if u < 0 then .fail                                                       -- :292-295
  else addChars A u.toNat line r

/-- The loop over the lines of the vocabulary, ppm_as_fst_model.cc:503-505. -/
def addLines : List (List Str) → Fst A.C × SymbolTable → Res (Fst A.C × SymbolTable)
  | [], r => pure r
  | l :: ls, r => do
    let r' ← addExtraCharacters A l r
    addLines ls r'

/-- inserting an arc by label -/
def insertArc {C : Type} (a : Arc C) : List (Arc C) → List (Arc C)
  | [] => [a]
  | b :: bs => if a.label ≤ b.label then a :: b :: bs else b :: insertArc a bs

/-- sorting arcs by label -/
def sortArcs {C : Type} : List (Arc C) → List (Arc C)
  | [] => []
  | a :: as => insertArc a (sortArcs as)

/-- `ArcSort(fst, ILabelCompare)` -/
def arcSort {C : Type} (f : Fst C) : Fst C :=
  { f with states := f.states.map fun st => { st with arcs := sortArcs st.arcs } }

/-- `CalculateStateOrder`, ppm_as_fst_model.cc:309-322: the orders afterwards and the order of `s`. -/
def calculateStateOrder (f : Fst A.C) : Nat → List Int → Int → Res (List Int × Int)
  | 0, _, _ => .fault .fuel
  | n + 1, orders, s =>
    if s < 0 then .fault .ub
    else match orders[s.toNat]? with
      | none => .fault .ub                                                  -- :310
      | some k =>
        if k ≥ 0 then pure (orders, k)
        else do
          let b ← getBackoffState f s                                       -- :311
          if b < 0 then .fail                                               -- :312-315
          else do
            let r ← calculateStateOrder f n orders b                        -- :316-319
            pure (r.1.set s.toNat (r.2 + 1), r.2 + 1)                       -- :320-321

/-- The loop of `CalculateStateOrders`, ppm_as_fst_model.cc:333-341: from state `s` on, the orders and
the largest so far. -/
def stateOrdersLoop (f : Fst A.C) (fuel : Nat) : Nat → Nat → List Int → Int → Res (List Int × Int)
  | 0, _, orders, top => pure (orders, top)
  | k + 1, s, orders, top => do
    let r ← calculateStateOrder A f fuel orders s
    stateOrdersLoop f fuel k (s + 1) r.1 (if r.2 > top then r.2 else top)

/-- `CalculateStateOrders`, ppm_as_fst_model.cc:324-345. -/
def calculateStateOrders (f : Fst A.C) (maxOrder : Int) (save : Bool) : Res (Core A.C) := do
  let n := f.states.length
  if f.start ≥ n then .fault .ub                                            -- :326
  else do
    let u ← getBackoffState f f.start                                       -- :327
    if u < 0 then .fail                                                     -- :328-330
    else do
      let orders := ((List.replicate n (-1 : Int)).set f.start 1).set u.toNat 0   -- :325-326, :331
      let r ← stateOrdersLoop A f (n + 1) n 0 orders 1
      pure {
        fst := f
        orders := if save then r.1 else []                                  -- :342
        maxOrder := if r.2 ≥ maxOrder then r.2 + 1 else maxOrder }          -- :343

/-- `PpmAsFstOptions`, mozolm/models/ppm_as_fst_options.proto. -/
structure Options (D : Type) where
  maxOrder : Int
  alpha : D
  beta : D
  static : Bool
  maxCache : Int
  modelIsFst : Bool

/-- The members set by `InitParameters`. -/
structure Parameters (D : Type) where
  maxOrder : Int
  alpha : D
  beta : D
  static : Bool
  maxCache : Int

/-- `InitParameters`, ppm_as_fst_model.cc:523-542; the defaults are in ppm_as_fst_model.h:80-84. -/
def initParameters (o : Options A.D) : Parameters A.D :=
  let maxOrder := if o.maxOrder > 0 then o.maxOrder else 4                  -- :524
  { maxOrder
    alpha := if A.dle o.alpha (A.ofInt 0) || A.dle (A.ofInt 1) o.alpha
      then A.ddiv (A.ofInt 1) (A.ofInt 2) else o.alpha                      -- :525-529
    beta := if A.dle o.beta (A.ofInt 0) || A.dle (A.ofInt 1) o.beta
      then A.ddiv (A.ofInt 3) (A.ofInt 4) else o.beta                       -- :530-534
    static := o.static                                                      -- :535
    maxCache := if o.maxCache > maxOrder then o.maxCache else 2000 }        -- :536-538

/-- What `Read` starts from. -/
inductive Source (C : Type) where
  /-- an FST file with its symbol table -/
  | fstFile (r : Option (Fst C × SymbolTable))
  /-- a text file: the result of reading it and `TrainFromText` -/
  | text (r : Option (Fst C × SymbolTable))
  /-- no model file -/
  | none

/-- The symbols before a vocabulary is read, ppm_as_fst_model.cc:474: the bytes of `<epsilon>`. -/
def epsilonTable : SymbolTable := [(0, [60, 101, 112, 115, 105, 108, 111, 110, 62])]

/-- The first part of `Read`, ppm_as_fst_model.cc:458-495. -/
def readSource (src : Source A.C) (hasVocab : Bool) : Res (Fst A.C × SymbolTable) :=
  match src with
  | .fstFile (some r) => pure r                                             -- :460-466
  | .fstFile .none => .fail                                                 -- :461-464
  | .text (some r) => pure r                                                -- :479-485
  | .text .none => .fail
  | .none =>
    if hasVocab then pure (makeEmpty A, epsilonTable)                       -- :490-494
    else .fail                                                              -- :486-489

/-- sorted only if there is no model file, ppm_as_fst_model.cc:506-509 -/
def sortIfEmpty (src : Source A.C) (f : Fst A.C) : Fst A.C :=
  match src with
  | .none => arcSort f
  | _ => f

/-- The vocabulary part of `Read`, ppm_as_fst_model.cc:496-511; `vocab`: no file name, or the contents. -/
def readVocab (src : Source A.C) (vocab : Option (Option (List (List Str)))) (r : Fst A.C × SymbolTable) :
    Res (Fst A.C × SymbolTable) :=
  match vocab with
  | none => pure r
  | some none => .fail                                                      -- :498
  | some (some []) => .fail                                                 -- :499-502
  | some (some ls) => do
    let r' ← addLines A ls r
    pure (sortIfEmpty A src r'.1, r'.2)

/-- `Read`, ppm_as_fst_model.cc:455-521. -/
def read (o : Options A.D) (src : Source A.C) (vocab : Option (Option (List (List Str)))) : Res (Model A) := do
  let p := initParameters A o                                               -- :457
  let r ← readSource A src vocab.isSome
  let r ← readVocab A src vocab r
  let c ← calculateStateOrders A r.1 p.maxOrder (!p.static)                 -- :512
  pure {
    core := c
    alpha := p.alpha
    beta := p.beta
    static := p.static
    symbols := r.2
    maxCache := if p.maxCache < c.maxOrder then c.maxOrder + 1 else p.maxCache   -- :513-516
    counter := 0                                                            -- :517
    index := List.replicate c.fst.states.length (-1)                        -- :518
    cache := [] }

end
end Mozolm.Ppm
