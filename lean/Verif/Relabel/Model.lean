import Verif.Scores.Model
import Verif.Fst

/-!
# Model of `mozolm/utils/ngram_fst_relabel.cc`

A symbol table is the list of its (label, symbol) pairs in table order; an automaton is its start state and its list of
states, each with its final weight and its arcs (input label, output label, weight, target).  OpenFst is not in the repository:
`Relabel` on arcs maps every label by the given pairs, labels without a pair staying as they are; whether `RelabelSymbolTable`
keeps symbols without a pair, or makes a table of the pairs only, is left open (`keepUnmapped`).
-/

namespace Mozolm.Relabel

/-- A symbol table: (label, symbol). -/
abbrev Table := List (Int × Str)

/-- An arc. -/
structure Arc (C : Type) where
  ilabel : Int
  olabel : Int
  weight : C
  next : Nat
  deriving DecidableEq, Repr

/-- A state. -/
structure State (C : Type) where
  final : C
  arcs : List (Arc C)
  deriving DecidableEq, Repr

/-- `AllowedWithheldCharLabels`, ngram_fst_relabel.cc:53-61. -/
def allowed : List Int :=
  (List.range' 1 8).map Int.ofNat ++ (List.range' 14 18).map Int.ofNat ++ [127]

/-- First loop of `GetCodepointMapping`, ngram_fst_relabel.cc:81-98: pairs (label, code point) of the
symbols not kept, and the labels of the kept ones.  `decode` is
`nisaba::utf8::DecodeSingleUnicodeChar`.  `none`: a symbol is not a single code point. -/
def collect (decode : Str → Option Int) (keep : List Str) :
    Table → Option (List (Int × Int) × List Int)
  | [] => some ([], [])
  | (label, sym) :: rest =>
    if label = 0 then collect decode keep rest                              -- :84
    else if sym ∈ keep then                                                 -- :85-89
      match collect decode keep rest with
      | none => none
      | some (m, k) => some (m, label :: k)
    else match decode sym with                                              -- :91-94
      | none => none
      | some cp =>
        match collect decode keep rest with
        | none => none
        | some (m, k) => some ((label, cp) :: m, k)                         -- :95

/-- Second loop, ngram_fst_relabel.cc:104-115; `n` is `num_kept_relabeled`, `new` the set `new_labels`.
`none`: more collisions than allowed labels. -/
def moveKept (new : List Int) : Nat → List Int → Option (List (Int × Int))
  | _, [] => some []
  | n, k :: ks =>
    if k ∈ new then
      match allowed[n]? with
      | none => none
      | some a =>
        match moveKept new (n + 1) ks with
        | none => none
        | some m => some ((k, a) :: m)
    else moveKept new n ks

/-- `GetCodepointMapping`, ngram_fst_relabel.cc:72-119. -/
def codepointMapping (decode : Str → Option Int) (keep : List Str) (t : Table) :
    Option (List (Int × Int)) :=
  match collect decode keep t with
  | none => none
  | some (m, kept) =>
    match moveKept (m.map Prod.snd) 0 kept with
    | none => none
    | some m' => some (m ++ m')

/-- OpenFst `Relabel`: the new label of a label. -/
def newLabel (m : List (Int × Int)) (l : Int) : Int :=
  match m.find? (fun p => p.1 == l) with
  | some p => p.2
  | none => l

/-- OpenFst `RelabelSymbolTable`: the symbols that have a pair, under their new labels, in the order of the pairs; or (`keepUnmapped`)
all symbols in the order of the table, those without a pair as they are. -/
def relabelTable (keepUnmapped : Bool) (m : List (Int × Int)) (t : Table) : Table :=
  if keepUnmapped then t.map fun e => (newLabel m e.1, e.2)
  else m.map fun p => (p.2, SymbolTable.findSymbol t p.1)

/-- An automaton with its symbol table. -/
structure Fst (C : Type) where
  table : Option Table
  start : Nat
  states : List (State C)

variable {C : Type}

/-- `kAcceptor`: input and output labels agree. -/
def acceptor (f : Fst C) : Bool := f.states.all fun st => st.arcs.all fun a => a.ilabel == a.olabel

/-- `kIDeterministic`: no state has two arcs with the same input label. -/
def deterministic (f : Fst C) : Bool := f.states.all fun st => decide ((st.arcs.map (·.ilabel)).Nodup)

/-- `kILabelSorted`. -/
def sorted (f : Fst C) : Bool :=
  f.states.all fun st => decide ((st.arcs.map (·.ilabel)).Pairwise (· ≤ ·))

/-- `CheckProperties`, ngram_fst_relabel.cc:122-133. -/
def checkProperties (f : Fst C) : Bool := acceptor f && deterministic f && sorted f

/-- `RelabelWithCodepoints`, ngram_fst_relabel.cc:137-159.  `none`: error status (the automaton is then
left as it was: every check precedes the first change).  `sort` is `ArcSort` by input label. -/
def relabel (decode : Str → Option Int) (keepUnmapped : Bool) (sort : List (Arc C) → List (Arc C))
    (keep : List Str) (f : Fst C) : Option (Fst C) :=
  if checkProperties f then
    match f.table with
    | none => none
    | some t =>
      match codepointMapping decode keep t with
      | none => none
      | some m =>
        some {
          table := some (relabelTable keepUnmapped m t)
          start := f.start
          states := f.states.map fun st => { st with
            arcs := sort (st.arcs.map fun a => { a with ilabel := newLabel m a.ilabel, olabel := newLabel m a.olabel }) } }
  else none

/-- The automaton as the language models read it (an acceptor: the input label of an arc). -/
def Fst.plain (f : Fst C) : Mozolm.Fst C where
  start := f.start
  states := f.states.map fun st => { final := st.final, arcs := st.arcs.map fun a => { label := a.ilabel, weight := a.weight, next := a.next } }

/-- What the program is given and leaves: flags, and the files, of which it may write one. -/
structure ToolFlags where
  input : Str := []
  output : Str := []
  keep : List Str := []

/-- `main` of ngram_fst_relabel_main.cc:85-104 with `RelabelAndSave` (:58-80): exit code, and the file written (`write` is whether
`Write` succeeds). -/
def relabelMain (decode : Str → Option Int) (keepUnmapped : Bool) (sort : List (Arc C) → List (Arc C)) (read : Str → Option (Fst C))
    (write : Str → Fst C → Bool) (f : ToolFlags) : Nat × Option (Str × Fst C) :=
  if f.input = [] then (1, none)                                          -- :88-91
  else if f.output = [] then (1, none)                                    -- :93-96
  else match read f.input with
    | none => (1, none)                                                   -- :64-67
    | some fst =>
      match relabel decode keepUnmapped sort f.keep fst with
      | none => (1, none)                                                 -- :72
      | some g => if write f.output g then (0, some (f.output, g)) else (1, none)  -- :76-78

end Mozolm.Relabel
