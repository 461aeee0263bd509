import Verif.Server.Handlers
import Verif.System.JavaLearning

/-! # What the Java example that teaches should do -/

namespace Mozolm.System
open Mozolm.Hub Mozolm.Server

/-- UTF-16: the code units of a code point. -/
def utf16 (c : Nat) : List Nat :=
  if c < 0x10000 then [c] else [0xD800 + (c - 0x10000) / 0x400, 0xDC00 + (c - 0x10000) % 0x400]

/-- A code point that is a character: not beyond the last one, and not a surrogate. -/
def Scalar (c : Nat) : Prop := c < 0xD800 ∨ (0xE000 ≤ c ∧ c < 0x110000)

/-- A session: an update request for each symbol at the current state, and a request for the state after the text that goes with it;
at last an update request for the end. It ends where a request is refused. -/
inductive Session {A : Arith} {σ : Type} (env : Env A σ) : Hub A σ → Int → List (Int × List Int) → Option Unit → Hub A σ → Prop
  | refused {h h1 : Hub A σ} {s c : Int} {t : List Int} {l : List (Int × List Int)} :
      updateLMScores env h s [c] 1 = .ok (.invalidArgument, h1) → Session env h s ((c, t) :: l) none h1
  | lost {h h1 h2 : Hub A σ} {s c : Int} {t : List Int} {l : List (Int × List Int)} {r : LMScores A.D} :
      updateLMScores env h s [c] 1 = .ok (.ok r, h1) → getNextState env h1 t s = .ok (.invalidArgument, h2) → Session env h s ((c, t) :: l) none h2
  | next {h h1 h2 h' : Hub A σ} {s c s' : Int} {t : List Int} {l : List (Int × List Int)} {out : Option Unit} {r : LMScores A.D} :
      updateLMScores env h s [c] 1 = .ok (.ok r, h1) → getNextState env h1 t s = .ok (.ok s', h2) → Session env h2 s' l out h' →
      Session env h s ((c, t) :: l) out h'
  | refusedEnd {h h1 : Hub A σ} {s : Int} : updateLMScores env h s [0] 1 = .ok (.invalidArgument, h1) → Session env h s [] none h1
  | ended {h h1 : Hub A σ} {s : Int} {r : LMScores A.D} : updateLMScores env h s [0] 1 = .ok (.ok r, h1) → Session env h s [] (some ()) h1

/-- What the example teaches for a character, and how it goes on: a character of the Basic Multilingual Plane itself; for another one
the character and then its second surrogate, and a question mark after each. -/
def lessonsOf (c : Nat) : List (Int × List Int) :=
  if c < 0x10000 then [((c : Int), [(c : Int)])]
  else [((c : Int), [63]), ((0xDC00 + (c - 0x10000) % 0x400 : Nat), [63])]

/-- The estimates are those of a reply. -/
def Estimated (r : LMScores XR) (l : List (XR × Str)) : Prop := l.map Prod.fst = r.probs ∧ l.map Prod.snd = r.symbols

end Mozolm.System
