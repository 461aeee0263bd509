import Verif.Server.Handlers
import Verif.Hub.Path
import Verif.System.Model

/-!
# What a server with a bigram component should count and reply

Tables of pairs of characters; no automaton, no state ids.
-/

namespace Mozolm.System
open Mozolm.Hub Mozolm.Server

/-- How often each character was seen after each character. -/
abbrev Pairs := Int → Int → Int

/-- The character under which the characters seen after `c` are counted: `c`, or the first one of the vocabulary `V`
for a character that is not in it (and at the beginning of a text). -/
def under (V : List Int) (c : Int) : Int := if c ∈ V then c else V.headD 0

/-- The pairs of a text typed after `a`: each character of the vocabulary with the one before it.  A character that is
not in the vocabulary is skipped, and what follows it counts as the beginning of a text. -/
def pairsOf (V : List Int) (a : Int) : List Int → List (Int × Int)
  | [] => []
  | c :: cs => if c ∈ V then (a, c) :: pairsOf V c cs else pairsOf V (V.headD 0) cs

/-- Counting a text `n` times after the character `c`; a count that is not positive adds nothing. -/
def Pairs.add (V : List Int) (T : Pairs) (c : Int) (text : List Int) (n : Int) : Pairs := fun a b =>
  T a b + if 0 < n then n * ((pairsOf V (under V c) text).count (a, b) : Nat) else 0

/-- All that was seen after `a`. -/
def Pairs.total (V : List Int) (T : Pairs) (a : Int) : Int := (V.map (T a)).sum

/-- The scores after the character `c`: the whole vocabulary, each character with its share of the counts. -/
def Pairs.reply (A : Arith) (encode : Int → Str) (V : List Int) (T : Pairs) (c : Int) : LMScores A.D where
  symbols := V.map encode
  probs := V.map fun b => A.ddiv (A.ofInt (T (under V c) b)) (A.ofInt (T.total V (under V c)))
  norm := A.ofInt (T.total V (under V c))

/-- All counts are in the range of `int64_t`. -/
def Pairs.Within (V : List Int) (T : Pairs) : Prop := ∀ a ∈ V, ∀ b ∈ V, T a b ≤ 9223372036854775807

section
variable {A : Arith} {σ : Type}

/-- There is room for `n` characters at state `s`: that many states are free, or `s` is further from being used
again. -/
def Spare (h : Hub A σ) (s n : Nat) : Prop := h.states.length + n ≤ h.max ∨ n < h.turnsLeft s

/-- What a request makes of the table, while the server goes from `h` to `h'`: asking changes nothing; counting at a
state of the server is counting after some character, which is the last one of the state if there is room (or if it is
one character and no state took its own place), and the beginning at state 0; with an id that is not (yet) a state it is
refused, unless looking up the text makes it one. -/
def Adds (V : List Int) (h h' : Hub A σ) : Request → Pairs → Pairs → Prop
  | .getNextState _ _, T, T' => T' = T
  | .getLMScores _ _, T, T' => T' = T
  | .updateLMScores s cs n, T, T' =>
    (¬ (0 ≤ toInt32 s ∧ toInt32 s < h.states.length) ∧ T' = T) ∨
    (0 ≤ toInt32 s ∧
      ∃ c, (toInt32 s < h.states.length → (∀ c ∈ cs, 0 ≤ c) →
          (Spare h (toInt32 s).toNat cs.length ∨ cs.length ≤ 1 ∧ h'.selfRecycled = false) → c = stateSym h (toInt32 s)) ∧
        (toInt32 s = 0 → c = 0) ∧ T' = T.add V c cs n)

/-- What a history of requests makes of the table. -/
inductive Counted (env : Env A σ) (V : List Int) : Hub A σ → Pairs → List Request → Hub A σ → Pairs → Prop
  | nil {h : Hub A σ} {T : Pairs} : Counted env V h T [] h T
  | cons {h h1 h' : Hub A σ} {T T1 T' : Pairs} {r : Request} {rs : List Request} :
      Server.serve env h r = .ok h1 → Adds V h h1 r T T1 → Counted env V h1 T1 rs h' T' → Counted env V h T (r :: rs) h' T'

/-- The last character of a text typed at state `x`: of the text, else of the state (0 for the start state). -/
def lastAt (h : Hub A σ) (x : Int) (text : List Int) : Int :=
  match text.getLast? with
  | some c => c
  | none => if toInt32 x < 0 then 0 else stateSym h (toInt32 x)

/-- Asking: the reply is made of the counts after the last character; only an empty text at a state that does not
exist is refused. -/
def PairsAsked (env : Env A σ) (encode : Int → Str) (V : List Int) (T : Pairs) (h : Hub A σ) : Prop :=
  ∀ (text : List Int) (x : Int), (∀ c ∈ text, 0 ≤ c) → ∀ rep h', getLMScores env h text x = .ok (rep, h') →
    rep = if text = [] ∧ (h.states.length : Int) ≤ toInt32 x then .invalidArgument else .ok (T.reply A encode V (lastAt h x text))

/-- Asking for the state of a text: it is a state of the server, with the last character. -/
def PairsNamed (env : Env A σ) (h : Hub A σ) : Prop :=
  ∀ (text : List Int) (x : Int), (∀ c ∈ text, 0 ≤ c) → ¬ (text = [] ∧ (h.states.length : Int) ≤ toInt32 x) →
    ∀ rep h1, getNextState env h text x = .ok (rep, h1) →
    ∃ s : Int, rep = .ok s ∧ 0 ≤ s ∧ s < h1.states.length ∧ stateSym h1 s = lastAt h x text

/-- Teaching at a state with room, or teaching one character: the reply is made of the counts after the last character, with the text counted. -/
def PairsTaught (env : Env A σ) (encode : Int → Str) (V : List Int) (T : Pairs) (h : Hub A σ) : Prop :=
  ∀ (x : Int) (cs : List Int) (n : Int), 0 ≤ toInt32 x → toInt32 x < h.states.length → (∀ c ∈ cs, 0 ≤ c) →
    (Spare h (toInt32 x).toNat cs.length ∨ cs.length ≤ 1) → ∀ rep h', updateLMScores env h x cs n = .ok (rep, h') → h'.selfRecycled = false →
    (T.add V (stateSym h (toInt32 x)) cs n).Within V →
    rep = .ok ((T.add V (stateSym h (toInt32 x)) cs n).reply A encode V (lastAt h x cs))

end

/-- The counts a bigram model starts with. -/
def tableOf (m : Bigram.Model) : Pairs := fun a b =>
  match m.utf8.idxOf? a, m.utf8.idxOf? b with
  | some i, some j => ((m.counts[i]?).bind fun row => row[j]?).getD 0
  | _, _ => 0

/-- Counting whole strings, each from the beginning of a text. -/
def Pairs.strings (V : List Int) (T : Pairs) : List Request → Pairs
  | [] => T
  | .updateLMScores _ cs n :: rs => (T.add V 0 cs n).strings V rs
  | _ :: rs => T.strings V rs

end Mozolm.System
