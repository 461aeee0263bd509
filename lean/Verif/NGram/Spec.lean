import Verif.NGram.Model

/-! # Specification vocabulary for the n-gram models -/

namespace Mozolm.NGram

variable {C : Type}

/-- The backoff transition of state `s`: its first epsilon arc that is not a self-loop. -/
def IsBackoff (f : Fst C) (s : Nat) (w : C) (t : Nat) : Prop :=
  ∃ st pre post, f.states[s]? = some st ∧ st.arcs = pre ++ ⟨0, w, t⟩ :: post ∧ t ≠ s ∧
    ∀ a ∈ pre, a.label = 0 → a.next = s

/-- `s` has an arc with the label; the first one has weight `w` and leads to `d`. -/
def FirstArc (f : Fst C) (s : Nat) (label : Int) (w : C) (d : Nat) : Prop :=
  ∃ st pre post, f.states[s]? = some st ∧ st.arcs = pre ++ ⟨label, w, d⟩ :: post ∧
    ∀ a ∈ pre, a.label ≠ label

/-- `s` has no arc with the label. -/
def NoArc (f : Fst C) (s : Nat) (label : Int) : Prop :=
  ∀ st, f.states[s]? = some st → ∀ a ∈ st.arcs, a.label ≠ label

/-- `t` is reached from `s` by following backoff transitions with the given weights. -/
inductive Walk (f : Fst C) : Nat → List C → Nat → Prop
  | here (s) : Walk f s [] s
  | step {s w t ws u} : IsBackoff f s w t → Walk f t ws u → Walk f s (w :: ws) u

/-- Every arc leads to an existing state. -/
def Closed (f : Fst C) : Prop :=
  f.start < f.states.length ∧
    ∀ st ∈ f.states, ∀ a ∈ st.arcs, a.next < f.states.length

/-- Backoff never cycles: it decreases some measure (for instance the length of the context). -/
def Acyclic (f : Fst C) : Prop :=
  ∃ rank : Nat → Nat, ∀ s w t, IsBackoff f s w t → rank t < rank s

/-- `P` holds at no state of the walk from `s` to `t` before `t`. -/
def Before (f : Fst C) (s t : Nat) (P : Nat → Prop) : Prop :=
  ∀ ws ws' u, Walk f s ws u → Walk f u ws' t → ws' ≠ [] → P u

end Mozolm.NGram
