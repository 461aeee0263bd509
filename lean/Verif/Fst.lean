import Verif.Basic
import Verif.Scores.Model

/-!
# OpenFst automata as the models use them

OpenFst is not in the repository.  A `StdVectorFst` acceptor is modelled by its start state, and per
state its final weight and its arcs in storage order.  The matcher's contract (`fst::Matcher`,
`SortedMatcher`, MATCH_INPUT) is modelled by `matchFirst`: `Find(0)` first matches an implicit
self-loop, `Find(kNoLabel)` matches epsilon arcs, any other label the arcs carrying it, in order.
-/

namespace Mozolm

/-- `StdArc` of an acceptor. -/
structure Arc (C : Type) where
  label : Int
  weight : C
  next : Nat
  deriving Repr, DecidableEq

/-- A state of a `StdVectorFst`. -/
structure FState (C : Type) where
  final : C
  arcs : List (Arc C)
  deriving Repr, DecidableEq

/-- `StdVectorFst`. -/
structure Fst (C : Type) where
  start : Nat
  states : List (FState C)
  deriving Repr, DecidableEq

namespace Fst
variable {C : Type}

/-- Access to a state by a (signed) id; `none` is out of bounds (undefined behaviour). -/
def state? (f : Fst C) (s : Int) : Option (FState C) :=
  if s < 0 then none else f.states[s.toNat]?

/-- `matcher.SetState(s); matcher.Find(label)` and `matcher.Value()`: weight and next state of the
first match. `one` is the weight of the implicit self-loop. -/
def matchFirst (one : C) (st : FState C) (s : Int) (label : Int) : Option (C × Int) :=
  if label = 0 then some (one, s)
  else
    match st.arcs.find? (fun a => a.label == if label = -1 then 0 else label) with
    | some a => some (a.weight, a.next)
    | none => none

end Fst

/-- A symbol table: (label, symbol) in table order. -/
abbrev SymbolTable := List (Int × Str)

namespace SymbolTable

/-- `Find(symbol)`: the label, `kNoSymbol` = -1 if absent. -/
def findLabel (t : SymbolTable) (s : Str) : Int :=
  match t.find? (fun e => e.2 == s) with
  | some e => e.1
  | none => -1

/-- `Find(label)`: the symbol, empty if absent. -/
def findSymbol (t : SymbolTable) (l : Int) : Str :=
  match t.find? (fun e => e.1 == l) with
  | some e => e.2
  | none => []

end SymbolTable
end Mozolm
