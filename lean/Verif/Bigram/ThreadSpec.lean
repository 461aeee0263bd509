import Verif.Bigram.Threads

/-! # Specification vocabulary for C21 -/

namespace Mozolm.Bigram.Threads

/-- the update a completed call performed -/
def Event.update? {A : Arith} : Event A → Option Update
  | .updated _ u => some u
  | _ => none

/-- the updates performed, in order of completion -/
def updates {A : Arith} (evs : List (Event A)) : List Update := evs.filterMap Event.update?

/-- what the event says was called, and by which thread -/
def Event.call {A : Arith} : Event A → Nat × Op
  | .scored t s _ => (t, .extract s)
  | .cost t s c _ => (t, .score s c)
  | .updated t u => (t, .update u)

/-- the calls completed by thread `t`, in order -/
def callsBy {A : Arith} (t : Nat) (evs : List (Event A)) : List Op :=
  (evs.map Event.call).filterMap fun p => if p.1 = t then some p.2 else none

/-- The event is what the call answers when run alone on `m`. -/
def Correct (A : Arith) (enc : Int → Str) (m : Model) : Event A → Prop
  | .scored _ s r => extractLMScores A enc m s = .ok r
  | .cost _ s c x => symLMScore A m s c = .ok x
  | .updated _ u => ∃ m', updateLMCounts m u.state u.syms u.count = .ok (true, m')

/-- A thread is between its first and its last write. -/
def Thread.midUpdate (th : Thread) : Prop :=
  match th.pc with
  | .writing _ _ => True
  | .half _ _ _ => True
  | _ => False

/-- A thread whose next step increments a count past 64 bits (undefined behaviour). -/
def Overflows {A : Arith} (cfg : Config A) (th : Thread) : Prop :=
  ∃ u rest i j cs c, th.todo = .update u :: rest ∧ th.pc = .half i j cs ∧
    cfg.mem.count i j = some c ∧ maxInt64 < c + u.count

end Mozolm.Bigram.Threads
