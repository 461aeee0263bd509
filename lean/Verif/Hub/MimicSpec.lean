import Verif.Basic
import Verif.Hub.Model

/-! # Component models that cannot be told apart -/

namespace Mozolm.Hub

variable {A : Arith} {σ τ : Type}

/-- `R m m'`: called with the same arguments, the two components answer alike, now and afterwards. -/
structure LMOps.Mimics (ops : LMOps A σ) (ops' : LMOps A τ) (R : σ → τ → Prop) : Prop where
  start : ∀ {m m'}, R m m' → ops.start m = ops'.start m'
  next : ∀ {m m'} (s c : Int), R m m' → (ops.next m s c).1 = (ops'.next m' s c).1 ∧ R (ops.next m s c).2 (ops'.next m' s c).2
  extract : ∀ {m m'} (s : Int), R m m' → (ops.extract m s).1 = (ops'.extract m' s).1 ∧ R (ops.extract m s).2 (ops'.extract m' s).2
  symScore : ∀ {m m'} (s c : Int), R m m' → (ops.symScore m s c).1 = (ops'.symScore m' s c).1 ∧ R (ops.symScore m s c).2 (ops'.symScore m' s c).2
  update : ∀ {m m'} (s : Int) (cs : List Int) (n : Int), R m m' →
    (ops.update m s cs n).1 = (ops'.update m' s cs n).1 ∧ R (ops.update m s cs n).2 (ops'.update m' s cs n).2

/-- Two hubs that are the same but for their components, which correspond one to one. -/
structure Like (R : σ → τ → Prop) (h : Hub A σ) (h' : Hub A τ) : Prop where
  states : h.states = h'.states
  last : h.last = h'.last
  max : h.max = h'.max
  weights : h.weights = h'.weights
  hlen : h.hlen = h'.hlen
  models : Pointwise R h.models h'.models
  selfRecycled : h.selfRecycled = h'.selfRecycled

end Mozolm.Hub
