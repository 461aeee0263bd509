import Verif.Ppm.Model

/-!
# What the PPM properties talk about

Counts, contexts and well-formedness of the automaton of counts, independently of the code that
maintains them.
-/

namespace Mozolm.Ppm
variable {A : Arith}

/-- The shorter context a context backs off to: the target of the leading epsilon arc. -/
def backoff {C : Type} (f : Fst C) (s : Nat) : Option Nat :=
  match f.states[s]? with
  | none => none
  | some st =>
    match st.arcs with
    | [] => none
    | a :: _ => if a.label = 0 then some a.next else none

/-- `b` is a shorter context of `s`. -/
inductive Below {C : Type} (f : Fst C) : Nat → Nat → Prop
  | step {s b} : backoff f s = some b → Below f b s
  | trans {s b b'} : backoff f s = some b → Below f b' b → Below f b' s

/-- The count (as a cost) of symbol `y` (0: end of string) stored at a state. -/
def stateCount (A : Arith) (st : FState A.C) (y : Int) : Option A.C :=
  if y = 0 then (if A.isInf st.final then none else some st.final)
  else (st.arcs.find? fun a => a.label == y).map Arc.weight

/-- The count of symbol `y` after context `s`, if any was observed. -/
def count (A : Arith) (f : Fst A.C) (s : Nat) (y : Int) : Option A.C :=
  f.states[s]?.bind fun st => stateCount A st y

/-- The total stored on the backoff arc of a context. -/
def storedTotal {C : Type} (f : Fst C) (s : Nat) : Option C :=
  f.states[s]?.bind fun st =>
    match st.arcs with
    | [] => none
    | a :: _ => if a.label = 0 then some a.weight else none

/-- Where an arc labelled `y` of context `s` leads; the start state for end of string. -/
def target {C : Type} (f : Fst C) (s : Nat) (y : Int) : Option Nat :=
  if y = 0 then some f.start
  else f.states[s]?.bind fun st => (st.arcs.find? fun a => a.label == y).map Arc.next

/-- `o` is the longest context of `s` (itself included) where `y` was observed. -/
inductive Origin (A : Arith) (f : Fst A.C) (y : Int) : Nat → Nat → Prop
  | here {s} : (count A f s y).isSome = true → Origin A f y s s
  | lower {s b o} : count A f s y = none → backoff f s = some b → Origin A f y b o → Origin A f y s o

/-- `x` is one of the contexts from `s` down to the longest one where `y` was observed. -/
inductive Excluded (A : Arith) (f : Fst A.C) (y : Int) : Nat → Nat → Prop
  | here {s} : Excluded A f y s s
  | lower {s b x} : count A f s y = none → backoff f s = some b → Excluded A f y b x →
      Excluded A f y s x

/-- Well-formedness of one state `s` of an automaton with `n` states, `V` symbols and unigram state
`u`, where `ord` is the length of a context and `Ok` holds of the costs of possible counts. -/
structure StateOk (A : Arith) (Ok : A.C → Prop) (n : Nat) (ord : Nat → Nat) (maxOrder : Int) (V u : Nat)
    (s : Nat) (st : FState A.C) : Prop where
  arcs : ∀ a ∈ st.arcs, a.label ≠ 0 → Ok a.weight ∧ a.next < n ∧
    (ord a.next = ord s ∨ ord a.next = ord s + 1) ∧ 1 ≤ a.label ∧ a.label ≤ V
  nodup : (st.arcs.map Arc.label).Nodup
  ord_lt : (ord s : Int) < maxOrder
  /-- the unigram state has a count for every symbol and no backoff -/
  unigram : s = u → Ok st.final ∧ st.arcs.length = V ∧ (∀ a ∈ st.arcs, a.label ≠ 0) ∧
    ∀ y : Int, 1 ≤ y → y ≤ V → ∃ a ∈ st.arcs, a.label = y
  /-- any other state starts with its backoff arc -/
  node : s ≠ u → (A.isInf st.final = true ∨ Ok st.final) ∧
    ∃ w b rest, st.arcs = ⟨0, w, b⟩ :: rest ∧ b < n ∧ ord s = ord b + 1

/-- Well-formed automaton of counts. -/
structure WF (A : Arith) (Ok : A.C → Prop) (f : Fst A.C) (ord : Nat → Nat) (maxOrder : Int) (V u : Nat) :
    Prop where
  states : ∀ s st, f.states[s]? = some st →
    StateOk A Ok f.states.length ord maxOrder V u s st
  u_lt : u < f.states.length
  ord_u : ord u = 0
  start : backoff f f.start = some u
  V_pos : 0 < V

/-- What the proofs use about counts: one is a possible count, counts only grow by one, a count is
neither infinite nor below `beta`. -/
structure CountLaws (A : Arith) (Ok : A.C → Prop) (beta : A.D) : Prop where
  one : Ok A.one
  succ : ∀ c, Ok c → Ok (A.nls c A.one)
  finite : ∀ c, Ok c → A.isInf c = false
  above : ∀ c, Ok c → A.ge c (A.cost beta) = false
  zero : A.isInf A.inf = true

end Mozolm.Ppm
