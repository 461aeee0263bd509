import Verif.Ppm.Ops

/-! # `LanguageModel::ContextState` of the PPM model -/

namespace Mozolm.Ppm
variable {A : Arith}

/-- The loop of `LanguageModel::ContextState`, language_model.cc:31-38; `start_state_` is the start state of
the automaton (ppm_as_fst_model.cc:519). -/
def contextLoop (encode : Int → Str) : List Int → Int → Model A → Except Fault (Int × Model A)
  | [], s, m => .ok (s, m)
  | c :: cs, s, m =>
    match nextState encode s c m with
    | .error e => .error e
    | .ok (s', m') => contextLoop encode cs (if s' < 0 then (m'.core.fst.start : Int) else s') m'

/-- `LanguageModel::ContextState`, language_model.cc:26-41, of a context given by its code points. -/
def contextState (encode : Int → Str) (cs : List Int) (init : Int) (m : Model A) : Except Fault (Int × Model A) :=
  contextLoop encode cs (if init < 0 then (m.core.fst.start : Int) else init) m

/-- Calls that only ask. -/
def Op.Query : Op → Prop
  | .next _ _ | .scores _ | .score _ _ => True
  | _ => False

end Mozolm.Ppm
