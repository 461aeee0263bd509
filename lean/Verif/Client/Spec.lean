import Verif.Client.Model

/-! # Small specification vocabulary for the client -/

namespace Mozolm.Client

/-- cumulative probability of the first `n` entries, added from the left starting with 0 -/
def cum (A : Arith) (probs : List A.D) (n : Nat) : A.D := (probs.take n).foldl A.dadd (A.ofInt 0)

/-- The remark that marks a generated text that reached the limit of its length. -/
def lengthMark : Str := "(reached_length_limit)".toList.map Char.toNat

/-- The conversation of a random generation that starts with the client knowing state `s` and the
scores `r`: each chosen symbol was offered by the last scores, is reported to the server once with
count 1 at the last known state, and the server's answers give the next scores and state. -/
inductive Session {D : Type} (decode : Str → List Int) :
    Int → LMScores D → List Str → List (Rpc D) → Int → LMScores D → Prop
  | nil (s r) : Session decode s r [] [] s r
  | cons {s r c cs s' r' log s'' r''} : c ∈ r.symbols → c ≠ [] →
      Session decode s' r' cs log s'' r'' →
      Session decode s r (c :: cs)
        (.update (Server.toInt32 s) (decode c) 1 (some r') ::
          .nextState c (Server.toInt32 s) (some s') :: log) s'' r''

end Mozolm.Client
