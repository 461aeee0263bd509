import Verif.Arith

/-! # Small helper lemmas on `Except` and lists -/

namespace Mozolm

theorem bind_ok {ε α β : Type} {x : Except ε α} {f : α → Except ε β} {b : β} :
    (x >>= f) = Except.ok b ↔ ∃ a, x = .ok a ∧ f a = .ok b := by
  cases x with
  | error e => simp [bind, Except.bind]
  | ok a => simp [bind, Except.bind]

theorem bind_error {ε α β : Type} {x : Except ε α} {f : α → Except ε β} {e : ε} :
    (x >>= f) = Except.error e ↔ x = .error e ∨ ∃ a, x = .ok a ∧ f a = .error e := by
  cases x with
  | error e => simp [bind, Except.bind]
  | ok a => simp [bind, Except.bind]

@[simp] theorem ok_bind {ε α β : Type} (a : α) (f : α → Except ε β) :
    ((Except.ok a : Except ε α) >>= f) = f a := rfl

@[simp] theorem error_bind {ε α β : Type} (e : ε) (f : α → Except ε β) :
    ((Except.error e : Except ε α) >>= f) = .error e := rfl

theorem lt_of_getElem?_eq_some {α : Type} {l : List α} {i : Nat} {a : α}
    (h : l[i]? = some a) : i < l.length := by
  rcases Nat.lt_or_ge i l.length with h' | h'
  · exact h'
  · rw [List.getElem?_eq_none h'] at h; cases h

theorem exists_getElem?_of_lt {α : Type} {l : List α} {i : Nat} (h : i < l.length) :
    ∃ a, l[i]? = some a := ⟨l[i], List.getElem?_eq_getElem h⟩

/-- pointwise relation on lists -/
inductive Pointwise {α β : Type} (R : α → β → Prop) : List α → List β → Prop
  | nil : Pointwise R [] []
  | cons {a b as bs} : R a b → Pointwise R as bs → Pointwise R (a :: as) (b :: bs)

namespace Pointwise
variable {α β γ : Type}

theorem length_eq {R : α → β → Prop} {l : List α} {l' : List β} (h : Pointwise R l l') :
    l.length = l'.length := by
  induction h with
  | nil => rfl
  | cons _ _ ih => simp [ih]

theorem refl {R : α → α → Prop} (hr : ∀ a, R a a) : ∀ l, Pointwise R l l
  | [] => .nil
  | a :: l => .cons (hr a) (refl hr l)

theorem trans {R : α → α → Prop} (ht : ∀ a b c, R a b → R b c → R a c) {l l' l'' : List α}
    (h : Pointwise R l l') (h' : Pointwise R l' l'') : Pointwise R l l'' := by
  induction h generalizing l'' with
  | nil => exact h'
  | cons r _ ih =>
    cases h' with
    | cons r' h' => exact .cons (ht _ _ _ r r') (ih h')

theorem mono {R S : α → β → Prop} (hrs : ∀ a b, R a b → S a b) {l l'} (h : Pointwise R l l') :
    Pointwise S l l' := by
  induction h with
  | nil => exact .nil
  | cons r _ ih => exact .cons (hrs _ _ r) ih

theorem map_eq {R : α → α → Prop} {f : α → γ} (hf : ∀ a b, R a b → f a = f b) {l l'}
    (h : Pointwise R l l') : l.map f = l'.map f := by
  induction h with
  | nil => rfl
  | cons r _ ih => simp [hf _ _ r, ih]

end Pointwise
end Mozolm
