import Verif.Hub.Model

/-! # Small specification vocabulary for the hub properties -/

namespace Mozolm.Hub

/-- `h` is a hub obtained by `InitializeModels` with configuration `cfg` on the components `models`,
followed by the API calls `calls`. -/
def Reach {A : Arith} {σ : Type} (env : Env A σ) (models : List σ) (cfg : HubConfig A.C)
    (calls : List Call) (h : Hub A σ) : Prop :=
  ∃ h0, initializeModels env models cfg = .ok (some h0) ∧ run env h0 calls = .ok h

/-- The component state reached from `s` by consuming the symbols one by one. -/
def pathState (view : Int → Int → Int) (s : Int) : List Int → Int
  | [] => s
  | c :: cs => pathState view (view s c) cs

/-- The costs of the symbols, each at the component state reached before it. -/
def pathCosts {C : Type} (view : Int → Int → Int) (cost : Int → Int → C) (s : Int) :
    List Int → List C
  | [] => []
  | c :: cs => cost s c :: pathCosts view cost (view s c) cs

/-- `a < b` as byte strings (`std::string::operator<`: lexicographic). -/
def byteLt (a b : Str) : Prop := a < b

/-- The last `n` elements. -/
def lastN {α : Type} (n : Nat) (l : List α) : List α := l.drop (l.length - n)

/-- The costs in a row added up, starting from the most recent one (the last). -/
def rowSum (A : Arith) (row : List A.C) : A.C :=
  row.dropLast.foldl A.times (row.getLast?.getD A.one)

end Mozolm.Hub
