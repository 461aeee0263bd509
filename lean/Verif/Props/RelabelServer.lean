import Verif.Props.RelabelModel
import Verif.Props.Interchange
import Verif.System.Model

/-!
# C107 — the server with a relabelled model
-/

namespace Mozolm.Relabel
open Hub Server System

variable {A : Arith} {decode : Str → Option Int} {keep : List Str}

/-- One component in the place of another: itself, or a character model that says the same. -/
inductive Standin (encode : Int → Str) : Component A → Component A → Prop
  | same (m) : Standin encode m m
  | char {mo mo'} : SameModel A encode mo mo' → Standin encode (.char mo) (.char mo')

theorem standin_mimics (encode : Int → Str) (fuel : Nat) : (ops A encode fuel).Mimics (ops A encode fuel) (Standin encode) where
  start := by rintro _ _ (_ | h) <;> rfl
  next := by
    rintro _ _ s c (_ | @⟨mo, mo', h⟩)
    · exact ⟨rfl, .same _⟩
    · simp only [ops, System.next, h.next fuel s c]
      cases NGram.nextState (A := A) encode fuel mo s c with
      | error e => exact ⟨rfl, .same _⟩
      | ok r => exact ⟨rfl, .char h⟩
  extract := by
    rintro _ _ s (_ | @⟨mo, mo', h⟩)
    · exact ⟨rfl, .same _⟩
    · simp only [ops, System.extract, h.reply fuel s]
      cases NGram.extractLMScores (A := A) fuel mo s with
      | error e => exact ⟨rfl, .same _⟩
      | ok r => exact ⟨rfl, .char h⟩
  symScore := by
    rintro _ _ s c (_ | @⟨mo, mo', h⟩)
    · exact ⟨rfl, .same _⟩
    · simp only [ops, System.symScore, h.score fuel s c]
      cases NGram.symLMScore (A := A) encode fuel mo s c with
      | error e => exact ⟨rfl, .same _⟩
      | ok r => exact ⟨rfl, .char h⟩
  update := by
    rintro _ _ s cs n (_ | @⟨mo, mo', h⟩)
    · exact ⟨rfl, .same _⟩
    · exact ⟨rfl, .char h⟩

/-- **C107** A server whose character model was relabelled, alone or among any other models, cannot be told apart from the same server
with the original: it starts exactly when the other does, and after every history of requests gives the same reply to every
request, or goes wrong in the same way. -/
theorem C107_server {sort : List (Arc A.C) → List (Arc A.C)} (hsort : ∀ l, (sort l).Perm l) {f g : Fst A.C} {t : Table}
    (ht : f.table = some t) (hc : Clean decode keep t) (hk : ∀ st ∈ f.states, ∀ a ∈ st.arcs, Known t a.ilabel)
    (h : relabel decode true sort keep f = some g) (encode : Int → Str) (fuel : Nat) (ok : Bool × Bool) (k : Int) {mo : NGram.Model A.C}
    (hmo : NGram.read A (source f ok k) = .ok (some mo)) (orderN : List (Int × Nat) → List (Int × Nat))
    (orderV : List (Str × A.C) → List (Str × A.C)) (before after : List (Component A)) (cfg : HubConfig A.C) :
    ∃ mo', NGram.read A (source g ok k) = .ok (some mo') ∧
      Both (fun x y => (x = none ∧ y = none) ∨ ∃ h h', x = some h ∧ y = some h' ∧
        ∀ reqs, Both (Indistinct (env A encode fuel orderN orderV) (env A encode fuel orderN orderV))
          (serveAll (env A encode fuel orderN orderV) h reqs) (serveAll (env A encode fuel orderN orderV) h' reqs))
        (initializeModels (env A encode fuel orderN orderV) (before ++ .char mo :: after) cfg)
        (initializeModels (env A encode fuel orderN orderV) (before ++ .char mo' :: after) cfg) := by
  obtain ⟨mo', h1, h2⟩ := (C107_same hsort ht hc hk h encode ok k).1 mo hmo
  refine ⟨mo', h1, C108_interchange (R := Standin encode) (standin_mimics encode fuel) rfl rfl ?_ cfg⟩
  induction before with
  | nil => exact .cons (.char h2) (.refl (fun m => .same m) _)
  | cons b before ih => exact .cons (.same b) ih

end Mozolm.Relabel
