import Verif.Hub.Spec

/-! # Concrete hubs used as witnesses -/

namespace Mozolm.Hub.Demo

/-- A static component whose state counts the symbols consumed. -/
def counter : Env Arith.unit Unit where
  start _ := 0
  next _ s _ := (s + 1, ())
  extract _ _ := (some { symbols := [[97]], probs := [()], norm := () }, ())
  symScore _ _ _ := ((), ())
  update _ _ _ _ := (true, ())
  orderN := id
  orderV := id

/-- A dynamic component: its (component) state is the number of symbols consumed, and it keeps the
list of (state, symbols) it was asked to count. -/
def recorder : Env Arith.unit (List (Int × List Int)) where
  start _ := 0
  next m s _ := (s + 1, m)
  extract m _ := (some { symbols := [[97]], probs := [()], norm := () }, m)
  symScore m _ _ := ((), m)
  update m s cs _ := (true, (s, cs) :: m)
  orderN := id
  orderV := id

/-- one model, no mixture, at most ten states -/
def cfg10 : HubConfig Unit :=
  { mixture := .none, weights := [()], bayesianHistoryLength := 0, maxStates := 10 }

/-- two models, interpolation with a history of two symbols, at most ten states -/
def cfgBayes : HubConfig Unit :=
  { mixture := .interpolation, weights := [(), ()], bayesianHistoryLength := 2, maxStates := 10 }

end Mozolm.Hub.Demo
