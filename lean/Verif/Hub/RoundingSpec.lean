import Verif.Hub.NumSpec
import Verif.Rounding

/-! # Specification of mixing with rounding: how many times a symbol is offered -/

namespace Mozolm.Hub

/-- How many entries of the components are for this symbol. -/
def offers (rs : List Share) (sym : Str) : Nat := (rs.map fun r => (r.2.map Prod.fst).count sym).sum

variable {φ : Prop} {ε δ : ℝ} {F : Rounding φ ε δ} {σ : Type}

/-- The components, from index `i`, answer with the symbols of `rs`, and with the probabilities of `rs` within the factor
`exp d`. -/
def AnswersNear (d : ℝ) (env : Env F.arith σ) (st : HubState XR) (i : Nat) (ms : List σ) (rs : List Share) : Prop :=
  ms.length = rs.length ∧ ∀ (k : Nat) (m : σ) (r : Share), ms[k]? = some m → rs[k]? = some r →
    ∃ m' xs nrm, env.extract m (st.modelState (i + k)) = (some ⟨r.2.map Prod.fst, xs, nrm⟩, m') ∧
      xs.length = r.2.length ∧ ∀ (l : Nat) (x : XR) (e : Str × ℝ), xs[l]? = some x → r.2[l]? = some e → ValueNear φ d x e.2

end Mozolm.Hub
