import Verif.System.Trace
import Verif.Hub.Answer

/-!
# A component on its own

The answer a component gives when it alone is asked, character after character, from its start state; and
that the answers of the components behind a hub are those (`Verif/System/Trace.lean`).
-/

namespace Mozolm.System
variable {A : Arith} {encode : Int → Str} {fuel : Nat}

/-- `NextState` for one character of the text after the other. -/
def walk (encode : Int → Str) (fuel : Nat) : Component A → Int → List Int → Component A × Int
  | m, s, [] => (m, s)
  | m, s, c :: cs => walk encode fuel (next encode fuel m s c).2 (next encode fuel m s c).1 cs

/-- The answer (`ExtractLMScores`) of a component asked on its own for a text, from its start state. -/
def alone (encode : Int → Str) (fuel : Nat) (m : Component A) (text : List Int) : Option (LMScores A.D) :=
  (extract encode fuel (walk encode fuel m (start m) text).1 (walk encode fuel m (start m) text).2).1

/-- The cost (`SymLMScore`) it gives on its own to a character after a text. -/
def aloneScore (encode : Int → Str) (fuel : Nat) (m : Component A) (text : List Int) (c : Int) : A.C :=
  (symScore encode fuel (walk encode fuel m (start m) text).1 (walk encode fuel m (start m) text).2 c).1

theorem walk_kept {m : Component A} (h : live encode fuel m) {text : List Int} (ht : ∀ c ∈ text, 0 ≤ c) :
    live encode fuel (walk encode fuel m (start m) text).1 ∧
    ok (walk encode fuel m (start m) text).1 (walk encode fuel m (start m) text).2 ∧
    den encode fuel (walk encode fuel m (start m) text).1 (walk encode fuel m (start m) text).2 text ∧
    ans encode fuel (walk encode fuel m (start m) text).1 = ans encode fuel m ∧
    cost encode fuel (walk encode fuel m (start m) text).1 = cost encode fuel m := by
  have key : ∀ (text : List Int) (m1 : Component A) (s : Int) (done : List Int), (∀ c ∈ text, 0 ≤ c) →
      live encode fuel m1 → ok m1 s → den encode fuel m1 s done →
      live encode fuel (walk encode fuel m1 s text).1 ∧
      ok (walk encode fuel m1 s text).1 (walk encode fuel m1 s text).2 ∧
      den encode fuel (walk encode fuel m1 s text).1 (walk encode fuel m1 s text).2 (done ++ text) ∧
      ans encode fuel (walk encode fuel m1 s text).1 = ans encode fuel m1 ∧
      cost encode fuel (walk encode fuel m1 s text).1 = cost encode fuel m1 := by
    intro text
    induction text with
    | nil =>
      intro m1 s done _ hl ho hd
      rw [List.append_nil]
      exact ⟨hl, ho, hd, rfl, rfl⟩
    | cons c text ih =>
      intro m1 s done ht hl ho hd
      have hk := trace_kept_next m1 s c hl ho
      obtain ⟨a1, a2, a3, a4, a5⟩ := ih _ _ (done ++ [c]) (fun c hc => ht c (List.mem_cons_of_mem _ hc))
        ((closedOn A encode fuel).live_next m1 s c hl ho) ((closedOn A encode fuel).next m1 s c hl ho)
        (trace_next m1 s c done hl ho hd (ht c List.mem_cons_self))
      refine ⟨a1, a2, ?_, a4.trans hk.answers, a5.trans hk.costs⟩
      rw [List.append_assoc] at a3
      exact a3
  exact key text m _ [] ht h ((closedOn A encode fuel).start m h) (trace_start m h)

theorem ans_alone {m : Component A} (h : live encode fuel m) {text : List Int} (ht : ∀ c ∈ text, 0 ≤ c) :
    ans encode fuel m text = alone encode fuel m text := by
  obtain ⟨a1, a2, a3, a4, _⟩ := walk_kept h ht
  rw [alone, trace_extract _ _ _ a1 a2 a3, a4]

theorem cost_alone {m : Component A} (h : live encode fuel m) {text : List Int} (ht : ∀ c ∈ text, 0 ≤ c) (c : Int) :
    cost encode fuel m text c = aloneScore encode fuel m text c := by
  obtain ⟨a1, a2, a3, _, a5⟩ := walk_kept h ht
  rw [aloneScore, trace_score _ _ c _ a1 a2 a3, a5]

/-- The costs a component gives the characters of a text are those it gives on its own. -/
theorem traceCosts_alone {C : Type} {cost sc : List Int → Int → C} {text : List Int}
    (h : ∀ pre c, pre ++ [c] <+: text → cost pre c = sc pre c) :
    Hub.traceCosts cost [] text = Hub.traceCosts sc [] text := by
  have key : ∀ (cs done : List Int), done ++ cs = text → Hub.traceCosts cost done cs = Hub.traceCosts sc done cs := by
    intro cs
    induction cs with
    | nil => intro _ _; rfl
    | cons c cs ih =>
      intro done e
      simp only [Hub.traceCosts]
      rw [h done c ⟨cs, by simpa using e⟩, ih (done ++ [c]) (by simpa using e)]
  exact key text [] rfl

theorem getElem?_traceCosts {C : Type} (sc : List Int → Int → C) (done cs : List Int) (i : Nat) :
    (Hub.traceCosts sc done cs)[i]? = (cs[i]?).map fun c => sc (done ++ cs.take i) c := by
  induction cs generalizing done i with
  | nil => simp [Hub.traceCosts]
  | cons c cs ih =>
    cases i with
    | zero => simp [Hub.traceCosts]
    | succ i => simp [Hub.traceCosts, ih]

end Mozolm.System
