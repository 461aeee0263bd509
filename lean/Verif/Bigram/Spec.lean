import Verif.Bigram.Model

/-! # Specification vocabulary for the bigram model -/

namespace Mozolm.Bigram

/-- The position of a symbol in the vocabulary. -/
def position (utf8 : List Int) (c : Int) : Option Nat := utf8.idxOf? c

/-- The moves an observed sequence makes from vocabulary position `i`: one per symbol in the
vocabulary; a symbol outside it makes no move and returns to position 0. -/
def moves (utf8 : List Int) (i : Nat) : List Int → List (Nat × Nat)
  | [] => []
  | c :: cs =>
    match position utf8 c with
    | none => moves utf8 0 cs
    | some j => (i, j) :: moves utf8 j cs

/-- How often the updates observe the move from `i` to `j`, with multiplicity. -/
def observed (utf8 : List Int) (i j : Nat) : List Update → Int
  | [] => 0
  | u :: us =>
    (if u.count ≤ 0 then 0
     else u.count * ((moves utf8 (if 0 ≤ u.state ∧ u.state < utf8.length then u.state.toNat else 0)
        u.syms).count (i, j) : Nat)) + observed utf8 i j us

/-- The stored count of the pair of positions `(i, j)`. -/
def Model.count (m : Model) (i j : Nat) : Option Int := (m.counts[i]?).bind fun row => row[j]?

/-- Well-formedness: a vocabulary of at least one symbol, strictly increasing from 0; a square matrix
of counts, all at least one and within 64 bits; each normaliser is its row's sum; the index table
maps exactly the vocabulary symbols to their positions. -/
structure WF (m : Model) : Prop where
  ne : m.utf8 ≠ []
  sorted : m.utf8.Pairwise (· < ·)
  nonneg : ∀ u ∈ m.utf8, 0 ≤ u
  normLen : m.norm.length = m.utf8.length
  rowsLen : m.counts.length = m.utf8.length
  rowLen : ∀ row ∈ m.counts, row.length = m.utf8.length
  pos : ∀ row ∈ m.counts, ∀ c ∈ row, 1 ≤ c ∧ c ≤ maxInt64
  sum : ∀ (i : Nat) (row : List Int), m.counts[i]? = some row → m.norm[i]? = some row.sum
  index : ∀ c : Int, nextState m 0 c = match position m.utf8 c with | some j => (j : Int) | none => -1

/-- One line of the vocabulary file is a single number, in the range of `int`. -/
def VocabLine (line : Str) (sym : Int) : Prop :=
  ∃ f, fields [] line = [f] ∧ stoi minInt32 maxInt32 f = .ok sym

/-- One line of the count file has `n` numbers, in the range of `int64_t`; counts below one are read
as one. -/
def CountLine (n : Nat) (line : Str) (row : List Int) : Prop :=
  (fields [] line).length = n ∧
    Pointwise (fun f c => ∃ x, stoi minInt64 maxInt64 f = .ok x ∧ c = if 1 < x then x else 1)
      (fields [] line) row

/-- The vocabulary file is well-formed and lists `utf8`. -/
def VocabFile (bytes : List Nat) (utf8 : List Int) : Prop :=
  Pointwise VocabLine (getLines [] bytes) utf8 ∧ utf8 ≠ [] ∧ utf8.Pairwise (· < ·) ∧
    ∀ u ∈ utf8, 0 ≤ u

/-- The count file is a well-formed `n × n` matrix. -/
def CountFile (n : Nat) (bytes : List Nat) (mat : List (List Int)) : Prop :=
  Pointwise (CountLine n) (getLines [] bytes) mat ∧ mat.length = n

/-- What `Read` should produce. -/
inductive Describes : FileArg → FileArg → List Int → List (List Int) → Prop
  /-- no vocabulary: the built-in one, uniform counts (the count file is ignored) -/
  | builtin (c : FileArg) : Describes .absent c defaultVocab
      (List.replicate 28 (List.replicate 28 1))
  | uniform {v : List Nat} {utf8 : List Int} : VocabFile v utf8 →
      Describes (.named (some v)) .absent utf8
        (List.replicate utf8.length (List.replicate utf8.length 1))
  | counted {v c : List Nat} {utf8 : List Int} {mat : List (List Int)} : VocabFile v utf8 →
      CountFile utf8.length c mat → Describes (.named (some v)) (.named (some c)) utf8 mat

/-- The models a history can reach: a successful `Read` followed by any updates. -/
def Reachable (m : Model) : Prop :=
  ∃ v c m0 us, read v c = .ok (some m0) ∧ run m0 us = .ok m

/-- The vocabulary position a state id stands for: itself, or 0 when it is not a state. -/
def stands (utf8 : List Int) (s : Int) : Nat :=
  if 0 ≤ s ∧ s < utf8.length then s.toNat else 0

end Mozolm.Bigram
