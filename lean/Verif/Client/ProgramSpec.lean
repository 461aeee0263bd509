import Verif.Client.Program
import Verif.XR

/-! # Small specification vocabulary for the client program -/

namespace Mozolm.Client

/-- Truncation towards zero, defined when the result is a 64-bit number. -/
noncomputable def truncate : XR → Option Int
  | .fin x => open Classical in
    let n := if 0 ≤ x then ⌊x⌋ else ⌈x⌉
    if -2 ^ 63 ≤ n ∧ n < 2 ^ 63 then some n else none
  | _ => none

/-- How long the program waits for each reply, in whole milliseconds, when the flag asks for `t` seconds. -/
inductive Waits : XR → Int → Prop
  | byDefault {t : XR} : XR.le t (.fin 0) → Waits t 5000
  | asked {t : ℝ} {ms : Int} : 0 < t → (ms : ℝ) ≤ 1000 * t → 1000 * t < ms + 1 → ms < 2 ^ 63 → Waits (.fin t) ms

/-- One of the continuations as printed. -/
def shown {D : Type} (fixed3 : D → Str) (x : D × Str) : Str := [32] ++ x.2 ++ [40] ++ fixed3 x.1 ++ [41]

/-- The line printed for continuations. -/
def kbestLine {D : Type} (fixed3 : D → Str) (k : Int) (l : List (D × Str)) : Str :=
  decimal k ++ literal "-best prob continuations:" ++ (l.map (shown fixed3)).flatten ++ [10]

/-- The line printed for a corpus. -/
def corpusLine {D : Type} (double : D → Str) (chars oov : Nat) (bits : D) : Str :=
  literal "Total characters: " ++ decimal chars ++ literal " (" ++ decimal oov ++ literal " OOV); bits per character: " ++ double bits ++ [10]

end Mozolm.Client
