import Verif.Word.Model
import Verif.NGram.Spec
import Verif.Props.NGram

/-! # Specification vocabulary for the word model -/

namespace Mozolm.Word

/-! ## Prefix states -/

/-- `I'` is a later value of the table of prefix states `I`: it results from requests of `GetState` and
look-ups of `FindExistingState`, successful or not. -/
inductive Later : Implicit → Implicit → Prop
  | refl (I) : Later I I
  | request {I J K} {ms k b e : Int} {r : Option Int} :
      Later I J → getState J ms k b e = .ok (r, K) → Later I K
  | lookup {I J K} {ms k b r : Int} :
      Later I J → findExistingState J ms k b = .ok (r, K) → Later I K

/-- A table of prefix states of a model: made by the constructor, then used. -/
def Table (I : Implicit) : Prop :=
  ∃ (numStates : Nat) (t : SymbolTable) (b e : Int), Later (Implicit.new numStates t b e) I

/-! ## Vocabularies -/

/-- A symbol table as OpenFst keeps it (labels and names distinct) that is dense: its labels are
`0, …, n - 1`. -/
structure Dense (t : SymbolTable) : Prop where
  nonempty : t ≠ []
  keys : (t.map Prod.fst).Nodup
  names : (t.map Prod.snd).Nodup
  labels : ∀ l : Int, l ∈ t.map Prod.fst ↔ 0 ≤ l ∧ l < t.length

/-- `w` is a word of the vocabulary with label `l`: neither epsilon nor the unknown word (whose label
is `oov`, -1 if there is none). -/
def IsWord (t : SymbolTable) (oov l : Int) (w : Str) : Prop := (l, w) ∈ t ∧ l ≠ 0 ∧ l ≠ oov

/-- `l` is in the vocabulary as `oov`, or there is no unknown word. -/
def IsUnknown (t : SymbolTable) (oov : Int) : Prop :=
  oov = -1 ∨ (0 < oov ∧ oov ∈ t.map Prod.fst)

/-- A vocabulary the word model is made for: dense, the unknown word absent (`oov` = -1) or last, at least
one word, and every word nonempty and without a space. -/
structure Vocabulary (t : SymbolTable) (oov : Int) : Prop where
  dense : Dense t
  unknown : oov = -1 ∨ (0 < oov ∧ oov = (t.length : Int) - 1)
  words : ∀ l w, IsWord t oov l w → w ≠ [] ∧ 32 ∉ w
  some : ∃ l w, IsWord t oov l w

/-! ## Typing

What the states of the word model stand for, and what typing a character does, without reference to the
tables of the model. -/

/-- Where a user of the model is. -/
inductive Place
  /-- The words so far lead to the n-gram state `q`; then the letters `p` have been typed. -/
  | word (q : Nat) (p : Str)
  /-- No word of the vocabulary starts with the letters typed since the last space. -/
  | unknown
  deriving DecidableEq

/-- Some word starts with `p`. -/
def Starts (t : SymbolTable) (oov : Int) (p : Str) : Prop := ∃ l w, IsWord t oov l w ∧ p <+: w

/-- The n-gram state after the word with label `l`: the target of the first arc with that label along
the backoff chain, the unigram state if there is none. -/
def AfterWord {A : Arith} (f : Fst A.C) (unigram : Nat) (q : Nat) (l : Int) (d : Nat) : Prop :=
  (∃ ws w, NGram.Found f q l ws w d) ∨
  ((∀ ws t, NGram.Walk f q ws t → NGram.NoArc f t l) ∧ d = unigram)

/-- Typing the character `c` (32 is the space) at a place leads to another. -/
inductive Types {A : Arith} (f : Fst A.C) (unigram : Nat) (t : SymbolTable) (oov : Int) :
    Place → Int → Place → Prop
  /-- a letter that continues some word -/
  | letter {q : Nat} {p : Str} {c : Nat} : Starts t oov (p ++ [c]) →
      Types f unigram t oov (.word q p) c (.word q (p ++ [c]))
  /-- at the beginning of a word, a character that starts no word -/
  | noWord {q : Nat} {c : Int} : (∀ d : Nat, c = d → ¬ Starts t oov [d]) →
      Types f unigram t oov (.word q []) c (.word unigram [])
  /-- inside a word, a letter that continues no word -/
  | lost {q : Nat} {p : Str} {c : Int} : p ≠ [] → c ≠ 32 → (∀ d : Nat, c = d → ¬ Starts t oov (p ++ [d])) →
      Types f unigram t oov (.word q p) c .unknown
  /-- a space after a complete word -/
  | complete {q d : Nat} {p : Str} {l : Int} : p ≠ [] → IsWord t oov l p → AfterWord f unigram q l d →
      Types f unigram t oov (.word q p) 32 (.word d [])
  /-- a space after an incomplete word -/
  | incomplete {q : Nat} {p : Str} : p ≠ [] → (∀ l, ¬ IsWord t oov l p) →
      Types f unigram t oov (.word q p) 32 (.word unigram [])
  /-- a space ends an unknown word -/
  | recover : Types f unigram t oov .unknown 32 (.word unigram [])
  /-- until then it stays unknown -/
  | stay {c : Int} : c ≠ 32 → Types f unigram t oov .unknown c .unknown

/-- The vocabulary words attached to a state: the words in its range of the lexicographic order. -/
def Attached {C : Type} (M : Static C) (I : Implicit) (s : Int) (l : Int) : Prop :=
  ∃ (x : Info) (i : Int), info I s = .ok (some x) ∧ x.beginIndex ≤ i ∧ i ≤ x.endIndex ∧
    getI M.tables.order i = .ok l

/-- The state `s` stands for a place: an n-gram state for the beginning of a word; a prefix state with
the n-gram state, the number of letters, and attached to it exactly the words starting with them; the
out-of-vocabulary state. -/
def Stands {C : Type} (M : Static C) (I : Implicit) (s : Int) : Place → Prop
  | .word q [] => s = q ∧ q < M.base.fst.states.length
  | .word q (c :: p) => (M.base.fst.states.length : Int) ≤ s ∧ q < M.base.fst.states.length ∧
      ∃ b e : Int, info I s = .ok (some ⟨q, ((c :: p).length : Int), b, e⟩) ∧
        Starts M.base.symbols M.base.oov (c :: p) ∧
        ∀ l, Attached M I s l ↔ ∃ w, IsWord M.base.symbols M.base.oov l w ∧ c :: p <+: w
  | .unknown => s = M.oovState

/-- A history of calls of `NextState` with existing states (not -1) and any symbols, ending with the table
`I'`. -/
inductive Calls {A : Arith} (encode : Int → Str) (M : Static A.C) : Implicit → Implicit → Prop
  | refl (I) : Calls encode M I I
  | call {I J K : Implicit} {s sym r : Int} {fuel : Nat} : Calls encode M I J → 0 ≤ s →
      nextState A encode fuel M J s sym = .ok (r, K) → Calls encode M I K

end Mozolm.Word
