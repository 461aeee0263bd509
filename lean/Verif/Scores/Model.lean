import Verif.Arith

/-!
# Model of `mozolm/models/language_model.cc` (free functions) and of the `LMScores` message
-/

namespace Mozolm

/-- A `std::string`: its bytes. `operator<` on `std::string` is lexicographic on unsigned bytes. -/
abbrev Str := List Nat

/-- `LMScores` (mozolm/models/lm_scores.proto): parallel repeated fields plus the normalisation. -/
structure LMScores (D : Type) where
  symbols : List Str
  probs : List D
  norm : D
  deriving Repr, DecidableEq

namespace Scores

/-- Result of `GetTopHypotheses`: the hypotheses, or one of its three `InternalError`s. -/
inductive TopResult (α : Type) where
  | ok (hyps : List α)
  | mismatch
  | tooMany
  | noScores
  deriving Repr, DecidableEq

/-- `GetTopHypotheses`, language_model.cc:43-71.  `std::sort` is not stable, so it is a parameter:
`sort` returns some rearrangement sorted by the comparator (first argument: `less`). -/
def getTopHypotheses {D : Type} (sort : List (D × Str) → List (D × Str))
    (scores : LMScores D) (topN : Int) : TopResult (D × Str) :=
  let numEntries := scores.probs.length                       -- :45
  if numEntries ≠ scores.symbols.length then .mismatch        -- :46-50
  else if (numEntries : Int) ≤ topN then .tooMany             -- :51-53
  else if numEntries = 0 then .noScores                       -- :54-56
  else
    let hyps := sort (List.zip scores.probs scores.symbols)   -- :57-66
    if topN > 0 then .ok (hyps.take topN.toNat)               -- :67-69
    else .ok hyps                                             -- :70

/-- The left fold of `NegLogSum` over a vector, starting from its first element
(language_model.cc:74-79; the same loop is in language_model_hub.cc:95-101 and 232-237).
Simplification: the Kahan compensation argument of `NegLogSum` only reduces rounding and is ignored. -/
def negLogSumFrom (A : Arith) (acc : A.C) : List A.C → A.C
  | [] => acc
  | c :: cs => negLogSumFrom A (A.nls acc c) cs

/-- `SoftmaxRenormalize`, language_model.cc:73-83.  Undefined on an empty vector (`[0]`, :74). -/
def softmaxRenormalize (A : Arith) (v : List A.C) : Except Fault (List A.C) :=
  match v with
  | [] => .error .ub
  | c :: cs =>
    let tot := negLogSumFrom A c cs
    .ok ((c :: cs).map fun x => A.over x tot)

end Scores
end Mozolm
