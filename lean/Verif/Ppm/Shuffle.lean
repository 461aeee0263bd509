import Verif.Ppm.Ops

/-!
# The order of arcs does not matter

Two automata of counts that differ only in the order of the arcs that follow the backoff arcs: every public function
does the same on both.
-/

namespace Mozolm.Ppm

/-- The same arcs, those with the same label in the same order. -/
inductive Shuffle {C : Type} : List (Arc C) → List (Arc C) → Prop
  | nil : Shuffle [] []
  | cons (a : Arc C) {l l' : List (Arc C)} : Shuffle l l' → Shuffle (a :: l) (a :: l')
  | swap (a b : Arc C) (l : List (Arc C)) : a.label ≠ b.label → Shuffle (a :: b :: l) (b :: a :: l)
  | trans {l l' l'' : List (Arc C)} : Shuffle l l' → Shuffle l' l'' → Shuffle l l''

namespace Shuffle
variable {C : Type}

theorem refl : ∀ l : List (Arc C), Shuffle l l
  | [] => .nil
  | a :: l => .cons a (refl l)

theorem symm {l l' : List (Arc C)} (h : Shuffle l l') : Shuffle l' l := by
  induction h with
  | nil => exact .nil
  | cons a _ ih => exact .cons a ih
  | swap a b l hne => exact .swap b a l (Ne.symm hne)
  | trans _ _ ih1 ih2 => exact .trans ih2 ih1

theorem length_eq {l l' : List (Arc C)} (h : Shuffle l l') : l.length = l'.length := by
  induction h with
  | nil => rfl
  | cons a _ ih => simp [ih]
  | swap a b l hne => rfl
  | trans _ _ ih1 ih2 => exact ih1.trans ih2

theorem mem_iff {l l' : List (Arc C)} (h : Shuffle l l') (a : Arc C) : a ∈ l ↔ a ∈ l' := by
  induction h with
  | nil => exact Iff.rfl
  | cons b _ ih => simp [ih]
  | swap b c l hne => simp only [List.mem_cons]; constructor <;> (rintro (h | h | h) <;> simp [h])
  | trans _ _ ih1 ih2 => exact ih1.trans ih2

theorem append_right {l l' : List (Arc C)} (h : Shuffle l l') (k : List (Arc C)) : Shuffle (l ++ k) (l' ++ k) := by
  induction h with
  | nil => exact refl k
  | cons a _ ih => exact .cons a ih
  | swap a b l hne => exact .swap a b (l ++ k) hne
  | trans _ _ ih1 ih2 => exact .trans ih1 ih2

theorem insert (a : Arc C) : ∀ l : List (Arc C), Shuffle (a :: l) (insertArc a l)
  | [] => refl _
  | b :: l => by
    unfold insertArc
    by_cases h : a.label ≤ b.label
    · rw [if_pos h]; exact refl _
    · rw [if_neg h]
      exact .trans (.swap a b l (by omega)) (.cons b (insert a l))

theorem sort : ∀ l : List (Arc C), Shuffle l (sortArcs l)
  | [] => .nil
  | a :: l => .trans (.cons a (sort l)) (insert a (sortArcs l))

end Shuffle

/-- The results of the search for an arc. -/
inductive SplitLike {C : Type} : Option (List (Arc C) × Arc C × List (Arc C)) →
    Option (List (Arc C) × Arc C × List (Arc C)) → Prop
  | none : SplitLike none none
  | some (a : Arc C) {p q p' q' : List (Arc C)} :
      (∀ b : Arc C, b.label = a.label → Shuffle (p ++ b :: q) (p' ++ b :: q')) →
      SplitLike (some (p, a, q)) (some (p', a, q'))

theorem SplitLike.trans {C : Type} {x y z : Option (List (Arc C) × Arc C × List (Arc C))} (h : SplitLike x y)
    (h' : SplitLike y z) : SplitLike x z := by
  cases h with
  | none => exact h'
  | some a h1 =>
    cases h' with
    | some _ h2 => exact .some a fun b hb => (h1 b hb).trans (h2 b hb)

theorem SplitLike.refl {C : Type} (x : Option (List (Arc C) × Arc C × List (Arc C))) : SplitLike x x := by
  cases x with
  | none => exact .none
  | some x => exact .some x.2.1 fun b _ => Shuffle.refl _

theorem splitArc_label {C : Type} {y : Int} : ∀ {l : List (Arc C)} {p a q}, splitArc y l = some (p, a, q) →
    a.label = y
  | [], p, a, q, h => by simp [splitArc] at h
  | x :: l, p, a, q, h => by
    unfold splitArc at h
    by_cases hx : x.label = y
    · rw [if_pos hx] at h
      injection h with h
      injection h with _ h
      injection h with h _
      rw [← h]; exact hx
    · rw [if_neg hx] at h
      cases hs : splitArc y l with
      | none => rw [hs] at h; cases h
      | some r =>
        obtain ⟨p', a', q'⟩ := r
        rw [hs] at h
        simp only [Option.some.injEq, Prod.mk.injEq] at h
        obtain ⟨_, rfl, _⟩ := h
        exact splitArc_label hs

theorem splitArc_shuffle {C : Type} {y : Int} {l l' : List (Arc C)} (h : Shuffle l l') :
    SplitLike (splitArc y l) (splitArc y l') := by
  induction h with
  | nil => exact .none
  | cons a h ih =>
    unfold splitArc
    by_cases ha : a.label = y
    · rw [if_pos ha, if_pos ha]
      exact .some a fun b _ => .cons b h
    · rw [if_neg ha, if_neg ha]
      generalize splitArc y _ = s1 at ih ⊢
      generalize splitArc y _ = s2 at ih ⊢
      cases ih with
      | none => exact .none
      | some x hx => exact .some x fun b hb => .cons a (hx b hb)
  | swap a b l hne =>
    simp only [splitArc]
    by_cases ha : a.label = y
    · have hb : ¬ b.label = y := fun hb => hne (ha.trans hb.symm)
      rw [if_pos ha, if_pos ha, if_neg hb]
      exact .some a fun x hx => .swap x b l (by rw [hx, ha]; exact fun e => hb e.symm)
    · rw [if_neg ha, if_neg ha]
      by_cases hb : b.label = y
      · rw [if_pos hb, if_pos hb]
        exact .some b fun x hx => .swap a x l (by rw [hx]; exact hne)
      · rw [if_neg hb, if_neg hb]
        generalize splitArc y _ = s1
        cases s1 with
        | none => exact .none
        | some r => exact .some r.2.1 fun x _ => .swap a b _ hne
  | trans _ _ ih1 ih2 => exact ih1.trans ih2

/-! ## States and automata -/

/-- The order of three summands does not matter (true of exact arithmetic). -/
def RightComm (A : Arith) : Prop := ∀ a b c : A.C, A.nls (A.nls a b) c = A.nls (A.nls a c) b

variable {A : Arith}

/-- The same state, or a state with a backoff whose other arcs are in another order, or, if sums do not
depend on it, a state without backoff whose arcs are in another order. -/
inductive StateLike (A : Arith) (st st' : FState A.C) : Prop
  | same : st = st' → StateLike A st st'
  | node {e : Arc A.C} {r r' : List (Arc A.C)} : e.label = 0 → st.final = st'.final → st.arcs = e :: r →
      st'.arcs = e :: r' → Shuffle r r' → StateLike A st st'
  | root : RightComm A → st.final = st'.final → (∀ a ∈ st.arcs, a.label ≠ 0) → Shuffle st.arcs st'.arcs →
      StateLike A st st'

theorem StateLike.final {st st' : FState A.C} (h : StateLike A st st') : st.final = st'.final := by
  cases h with
  | same h => rw [h]
  | node _ h _ _ _ => exact h
  | root _ h _ _ => exact h

theorem StateLike.symm {st st' : FState A.C} (h : StateLike A st st') : StateLike A st' st := by
  cases h with
  | same h => exact .same h.symm
  | node h1 h2 h3 h4 h5 => exact .node h1 h2.symm h4 h3 h5.symm
  | root h1 h2 h3 h4 => exact .root h1 h2.symm (fun a ha => h3 a ((h4.mem_iff a).mpr ha)) h4.symm

theorem StateLike.trans {st st' st'' : FState A.C} (h : StateLike A st st') (h' : StateLike A st' st'') :
    StateLike A st st'' := by
  cases h with
  | same h => rw [h]; exact h'
  | node h1 h2 h3 h4 h5 =>
    cases h' with
    | same h => rw [← h]; exact .node h1 h2 h3 h4 h5
    | node k1 k2 k3 k4 k5 =>
      rw [h4] at k3
      injection k3 with e1 e2
      subst e1; subst e2
      exact .node h1 (h2.trans k2) h3 k4 (h5.trans k5)
    | root k1 k2 k3 k4 => exact absurd h1 (k3 _ (by rw [h4]; exact List.mem_cons_self))
  | root h1 h2 h3 h4 =>
    cases h' with
    | same h => rw [← h]; exact .root h1 h2 h3 h4
    | node k1 k2 k3 k4 k5 => exact absurd k1 (h3 _ ((h4.mem_iff _).mpr (by rw [k3]; exact List.mem_cons_self)))
    | root k1 k2 k3 k4 => exact .root h1 (h2.trans k2) h3 (h4.trans k4)

/-- the first arcs of a state without backoff -/
theorem root_heads {st st' : FState A.C} (h3 : ∀ a ∈ st.arcs, a.label ≠ 0) (h4 : Shuffle st.arcs st'.arcs) :
    (st.arcs = [] ∧ st'.arcs = []) ∨ ∃ a r a' r', st.arcs = a :: r ∧ st'.arcs = a' :: r' ∧ a.label ≠ 0 ∧ a'.label ≠ 0 := by
  have hl := h4.length_eq
  cases h1 : st.arcs with
  | nil =>
    rw [h1] at hl
    exact .inl ⟨rfl, List.length_eq_zero_iff.mp hl.symm⟩
  | cons a r =>
    cases h2 : st'.arcs with
    | nil => rw [h1, h2] at hl; cases hl
    | cons a' r' =>
      exact .inr ⟨a, r, a', r', rfl, rfl, h3 a (by rw [h1]; exact List.mem_cons_self),
        h3 a' ((h4.mem_iff a').mpr (by rw [h2]; exact List.mem_cons_self))⟩

theorem totalFrom_shuffle (hP : RightComm A) {l l' : List (Arc A.C)} (h : Shuffle l l') : ∀ acc : A.C,
    (∀ a ∈ l, a.label ≠ 0) → totalFrom A acc l = totalFrom A acc l' := by
  induction h with
  | nil => intro acc _; rfl
  | cons a _ ih =>
    intro acc hl
    have h1 := hl a List.mem_cons_self
    unfold totalFrom
    rw [if_neg h1, if_neg h1]
    exact ih _ fun b hb => hl b (List.mem_cons_of_mem _ hb)
  | swap a b l hne =>
    intro acc hl
    have h1 := hl a List.mem_cons_self
    have h2 := hl b (List.mem_cons_of_mem _ List.mem_cons_self)
    simp only [totalFrom, if_neg h1, if_neg h2]
    rw [hP]
  | trans h1 _ ih1 ih2 =>
    intro acc hl
    exact (ih1 acc hl).trans (ih2 acc fun a ha => hl a ((h1.mem_iff a).mpr ha))

/-- The same automaton up to the order of arcs. -/
structure FstLike (A : Arith) (f g : Fst A.C) : Prop where
  start : f.start = g.start
  length : f.states.length = g.states.length
  states : ∀ (s : Nat) st, f.states[s]? = some st → ∃ st', g.states[s]? = some st' ∧ StateLike A st st'

/-- possible states -/
inductive OptLike (A : Arith) : Option (FState A.C) → Option (FState A.C) → Prop
  | none : OptLike A none none
  | some {st st' : FState A.C} : StateLike A st st' → OptLike A (some st) (some st')

theorem FstLike.get {f g : Fst A.C} (h : FstLike A f g) (s : Nat) : OptLike A f.states[s]? g.states[s]? := by
  cases hs : f.states[s]? with
  | none =>
    have := h.length
    have h1 := List.getElem?_eq_none_iff.mp hs
    rw [List.getElem?_eq_none (by omega)]
    exact .none
  | some st =>
    obtain ⟨st', h1, h2⟩ := h.states s st hs
    rw [h1]; exact .some h2

theorem FstLike.state? {f g : Fst A.C} (h : FstLike A f g) (s : Int) : OptLike A (f.state? s) (g.state? s) := by
  unfold Fst.state?
  by_cases hs : s < 0
  · rw [if_pos hs, if_pos hs]; exact .none
  · rw [if_neg hs, if_neg hs]; exact h.get _

theorem FstLike.refl (f : Fst A.C) : FstLike A f f := ⟨rfl, rfl, fun _ st h => ⟨st, h, .same rfl⟩⟩

theorem FstLike.symm {f g : Fst A.C} (h : FstLike A f g) : FstLike A g f := by
  refine ⟨h.start.symm, h.length.symm, fun s st hs => ?_⟩
  have := h.get s
  rw [hs] at this
  generalize f.states[s]? = x at this ⊢
  cases this with
  | some hl => exact ⟨_, rfl, hl.symm⟩

theorem FstLike.trans {f g k : Fst A.C} (h : FstLike A f g) (h' : FstLike A g k) : FstLike A f k := by
  refine ⟨h.start.trans h'.start, h.length.trans h'.length, fun s st hs => ?_⟩
  obtain ⟨st1, e1, e2⟩ := h.states s st hs
  obtain ⟨st2, e3, e4⟩ := h'.states s st1 e1
  exact ⟨st2, e3, e2.trans e4⟩

theorem FstLike.set {f g : Fst A.C} (h : FstLike A f g) (s : Int) {st st' : FState A.C} (hl : StateLike A st st') :
    FstLike A (setState f s st) (setState g s st') := by
  refine ⟨h.start, by simp only [setState, List.length_set]; exact h.length, fun x st1 hx => ?_⟩
  have hlen := h.length
  simp only [setState, List.getElem?_set] at hx ⊢
  by_cases hsx : s.toNat = x
  · rw [if_pos hsx] at hx ⊢
    by_cases hlt : s.toNat < f.states.length
    · rw [if_pos hlt] at hx
      rw [if_pos (by omega)]
      injection hx with hx
      subst hx
      exact ⟨st', rfl, hl⟩
    · rw [if_neg hlt] at hx; cases hx
  · rw [if_neg hsx] at hx ⊢
    exact h.states x st1 hx

theorem FstLike.push {f g : Fst A.C} (h : FstLike A f g) (st : FState A.C) :
    FstLike A { f with states := f.states ++ [st] } { g with states := g.states ++ [st] } := by
  have hlen := h.length
  refine ⟨h.start, by simp [hlen], fun x st1 hx => ?_⟩
  simp only [List.getElem?_append] at hx ⊢
  by_cases hlt : x < f.states.length
  · rw [if_pos hlt] at hx
    rw [if_pos (by omega)]
    exact h.states x st1 hx
  · rw [if_neg hlt] at hx
    rw [if_neg (by omega), ← hlen]
    exact ⟨st1, hx, .same rfl⟩

/-! ## Fallible computations -/

/-- The same kind of result, with related values. -/
inductive Agree {α β : Type} (R : α → β → Prop) : Res α → Res β → Prop
  | fault (e : Fault) : Agree R (.error e) (.error e)
  | fail : Agree R (.ok none) (.ok none)
  | ok {a : α} {b : β} : R a b → Agree R (.ok (some a)) (.ok (some b))

theorem Agree.refl {α : Type} (x : Res α) : Agree Eq x x := by
  match x with
  | .error e => exact .fault e
  | .ok none => exact .fail
  | .ok (some a) => exact .ok rfl

theorem Agree.of_eq {α : Type} {x y : Res α} (h : x = y) : Agree Eq x y := h ▸ Agree.refl x

theorem Agree.bind {α β γ δ : Type} {R : α → β → Prop} {Q : γ → δ → Prop} {x : Res α} {y : Res β} {f : α → Res γ}
    {g : β → Res δ} (h : Agree R x y) (h' : ∀ a b, R a b → Agree Q (f a) (g b)) : Agree Q (x >>= f) (y >>= g) := by
  cases h with
  | fault e => exact .fault e
  | fail => exact .fail
  | ok hr => exact h' _ _ hr

theorem Agree.eq_bind {α γ δ : Type} {Q : γ → δ → Prop} {x : Res α} {f : α → Res γ}
    {g : α → Res δ} (h' : ∀ a, Agree Q (f a) (g a)) : Agree Q (x >>= f) (x >>= g) :=
  Agree.bind (Agree.refl x) fun a b e => by subst e; exact h' a

theorem Agree.eq {α : Type} {x y : Res α} (h : Agree Eq x y) : x = y := by
  cases h with
  | fault e => rfl
  | fail => rfl
  | ok hr => rw [hr]

section
variable {A : Arith}

theorem getBackoffState_like {f g : Fst A.C} (h : FstLike A f g) (s : Int) : getBackoffState f s = getBackoffState g s := by
  unfold getBackoffState
  have := h.state? s
  generalize f.state? s = x at this ⊢
  generalize g.state? s = y at this ⊢
  cases this with
  | none => rfl
  | some hl =>
    cases hl with
    | same e => rw [e]
    | node h1 h2 h3 h4 h5 => simp only [h3, h4]
    | root h1 h2 h3 h4 =>
      rcases root_heads h3 h4 with ⟨e1, e2⟩ | ⟨a, r, a', r', e1, e2, e3, e4⟩
      · simp only [e1, e2]
      · simp only [e1, e2, if_neg e3, if_neg e4]

theorem noObservations_like {f g : Fst A.C} (h : FstLike A f g) (s : Int) :
    noObservations A f s = noObservations A g s := by
  unfold noObservations
  have := h.state? s
  generalize f.state? s = x at this ⊢
  generalize g.state? s = y at this ⊢
  cases this with
  | none => rfl
  | some hl =>
    cases hl with
    | same e => rw [e]
    | node h1 h2 h3 h4 h5 => simp only [h3, h4, h2, List.length_cons, h5.length_eq]
    | root h1 h2 h3 h4 =>
      rcases root_heads h3 h4 with ⟨e1, e2⟩ | ⟨a, r, a', r', e1, e2, e3, e4⟩
      · simp only [e1, e2]
      · simp only [e1, e2, beq_eq_false_iff_ne.mpr e3, beq_eq_false_iff_ne.mpr e4, Bool.and_false]

theorem incrementBackoffArc_like {f g : Fst A.C} (h : FstLike A f g) (s : Int) :
    Agree (fun a b => FstLike A a.1 b.1 ∧ a.2 = b.2) (incrementBackoffArc A f s) (incrementBackoffArc A g s) := by
  unfold incrementBackoffArc
  rw [noObservations_like h]
  refine Agree.eq_bind fun no => ?_
  have := h.state? s
  generalize f.state? s = x at this ⊢
  generalize g.state? s = y at this ⊢
  cases this with
  | none => exact .fault _
  | @some st st' hl =>
    have key : ∀ st st' : FState A.C, StateLike A st st' → ∀ (e : Arc A.C) (r r' : List (Arc A.C)), st.arcs = e :: r →
        st'.arcs = e :: r' → (e.label = 0 → Shuffle r r') →
        Agree (fun a b => FstLike A a.1 b.1 ∧ a.2 = b.2)
          (match st.arcs with
            | [] => Res.fault .ub
            | a :: rest =>
              if a.label = 0 then
                if no then pure (f, (a.next : Int))
                else pure (setState f s { st with arcs := { a with weight := A.nls a.weight A.one } :: rest }, (a.next : Int))
              else pure (f, -1))
          (match st'.arcs with
            | [] => Res.fault .ub
            | a :: rest =>
              if a.label = 0 then
                if no then pure (g, (a.next : Int))
                else pure (setState g s { st' with arcs := { a with weight := A.nls a.weight A.one } :: rest }, (a.next : Int))
              else pure (g, -1)) := by
      intro st st' hl e r r' h3 h4 h5
      rw [h3, h4]
      simp only
      by_cases h1 : e.label = 0
      · rw [if_pos h1, if_pos h1]
        cases no with
        | true => exact .ok ⟨h, rfl⟩
        | false => exact .ok ⟨h.set s (.node (by exact h1) hl.final rfl rfl (h5 h1)), rfl⟩
      · rw [if_neg h1, if_neg h1]; exact .ok ⟨h, rfl⟩
    cases hl with
    | same e =>
      subst e
      cases ha : st.arcs with
      | nil => simp only [ha]; exact .fault _
      | cons e r =>
        have := key st st (.same rfl) e r r ha ha (fun _ => .refl r)
        rw [ha] at this
        simp only [ha]
        exact this
    | node h1 h2 h3 h4 h5 =>
      exact key st st' (.node h1 h2 h3 h4 h5) _ _ _ h3 h4 (fun _ => h5)
    | root h1 h2 h3 h4 =>
      rcases root_heads h3 h4 with ⟨e1, e2⟩ | ⟨a, r, a', r', e1, e2, e3, e4⟩
      · simp only [e1, e2]; exact .fault _
      · simp only [e1, e2, if_neg e3, if_neg e4]; exact .ok ⟨h, rfl⟩

/-! ## Vectors of a state -/

/-- Vectors of one length. -/
def Even (d : Data A.C) : Prop := d.origin.length = d.dest.length ∧ d.dest.length = d.costs.length

theorem setEntry_even {beta : A.D} {den : A.C} {uni : Bool} {s next : Int} {count : A.C} {i : Nat} {d d' : Data A.C}
    (h : setEntry A beta den uni s next count i d = pure d') (he : Even d) :
    Even d' ∧ d'.origin.length = d.origin.length := by
  unfold setEntry at h
  by_cases hi : i < d.origin.length ∧ i < d.dest.length
  · rw [if_pos hi] at h
    cases hc : d.costs[i]? with
    | none => rw [hc] at h; cases h
    | some lower =>
      rw [hc] at h
      simp only at h
      cases hu : updateIndexProb A count (A.cost beta) den lower uni with
      | none => rw [hu] at h; cases h
      | some p =>
        rw [hu] at h
        have := Res.pure_inj h
        subst this
        simpa [Even] using he
  · rw [if_neg hi] at h; cases h

/-- two assignments at different places -/
theorem setEntry_comm {beta : A.D} {den : A.C} {uni : Bool} {s n1 n2 : Int} {c1 c2 : A.C} {i j : Nat} (hij : i ≠ j)
    {d : Data A.C} (he : Even d) (hi : i < d.origin.length) (hj : j < d.origin.length) :
    (setEntry A beta den uni s n1 c1 i d >>= setEntry A beta den uni s n2 c2 j) =
      (setEntry A beta den uni s n2 c2 j d >>= setEntry A beta den uni s n1 c1 i) := by
  obtain ⟨e1, e2⟩ := he
  obtain ⟨w1, hw1⟩ := exists_getElem?_of_lt (l := d.costs) (i := i) (by omega)
  obtain ⟨w2, hw2⟩ := exists_getElem?_of_lt (l := d.costs) (i := j) (by omega)
  have k1 : i < d.origin.length ∧ i < d.dest.length := by omega
  have k2 : j < d.origin.length ∧ j < d.dest.length := by omega
  have hji : j ≠ i := fun e => hij e.symm
  cases hu1 : updateIndexProb A c1 (A.cost beta) den w1 uni with
  | none =>
    cases hu2 : updateIndexProb A c2 (A.cost beta) den w2 uni with
    | none =>
      have h1 : setEntry A beta den uni s n1 c1 i d = Res.fail := by
        unfold setEntry; rw [if_pos k1, hw1]; simp only [hu1]
      have h2 : setEntry A beta den uni s n2 c2 j d = Res.fail := by
        unfold setEntry; rw [if_pos k2, hw2]; simp only [hu2]
      rw [h1, h2]; rfl
    | some p2 =>
      have h1 : setEntry A beta den uni s n1 c1 i d = Res.fail := by
        unfold setEntry; rw [if_pos k1, hw1]; simp only [hu1]
      have h2 : setEntry A beta den uni s n2 c2 j d = pure { d with
          origin := d.origin.set j s, dest := d.dest.set j n2, costs := d.costs.set j p2 } := by
        unfold setEntry; rw [if_pos k2, hw2]; simp only [hu2]
      rw [h1, h2]
      simp only [Res.pure_bind]
      unfold setEntry
      simp only [List.length_set]
      rw [if_pos k1, List.getElem?_set_ne hji, hw1]; simp only [hu1]; rfl
  | some p1 =>
    have h1 : setEntry A beta den uni s n1 c1 i d = pure { d with
        origin := d.origin.set i s, dest := d.dest.set i n1, costs := d.costs.set i p1 } := by
      unfold setEntry; rw [if_pos k1, hw1]; simp only [hu1]
    cases hu2 : updateIndexProb A c2 (A.cost beta) den w2 uni with
    | none =>
      have h2 : setEntry A beta den uni s n2 c2 j d = Res.fail := by
        unfold setEntry; rw [if_pos k2, hw2]; simp only [hu2]
      rw [h1, h2]
      simp only [Res.pure_bind]
      unfold setEntry
      simp only [List.length_set]
      rw [if_pos k2, List.getElem?_set_ne hij, hw2]; simp only [hu2]; rfl
    | some p2 =>
      have h2 : setEntry A beta den uni s n2 c2 j d = pure { d with
          origin := d.origin.set j s, dest := d.dest.set j n2, costs := d.costs.set j p2 } := by
        unfold setEntry; rw [if_pos k2, hw2]; simp only [hu2]
      rw [h1, h2]
      simp only [Res.pure_bind]
      unfold setEntry
      simp only [List.length_set]
      rw [if_pos k1, if_pos k2, List.getElem?_set_ne hji, hw1, List.getElem?_set_ne hij, hw2]
      simp only [hu1, hu2]
      rw [List.set_comm (a := s) (b := s) hij, List.set_comm (a := n1) (b := n2) hij, List.set_comm (a := p1) (b := p2) hij]

/-- one arc of the loop of `UpdateCacheStatesAndProbs` -/
def fillArc (A : Arith) (beta : A.D) (den : A.C) (uni : Bool) (s : Int) (a : Arc A.C) (d : Data A.C) : Res (Data A.C) :=
  if a.label > 0 then
    if a.label ≥ d.origin.length then .fail else setEntry A beta den uni s a.next a.weight a.label.toNat d
  else pure d

theorem fillArcs_cons {beta : A.D} {den : A.C} {uni : Bool} {s : Int} (a : Arc A.C) (as : List (Arc A.C)) (d : Data A.C) :
    fillArcs A beta den uni s (a :: as) d = fillArc A beta den uni s a d >>= fillArcs A beta den uni s as := by
  unfold fillArcs fillArc
  by_cases h : a.label > 0
  · rw [if_pos h, if_pos h]
    by_cases h' : a.label ≥ d.origin.length
    · rw [if_pos h', if_pos h']; rfl
    · rw [if_neg h', if_neg h']
  · rw [if_neg h, if_neg h]; rfl

theorem fillArc_even {beta : A.D} {den : A.C} {uni : Bool} {s : Int} {a : Arc A.C} {d d' : Data A.C}
    (h : fillArc A beta den uni s a d = pure d') (he : Even d) : Even d' ∧ d'.origin.length = d.origin.length := by
  unfold fillArc at h
  by_cases h1 : a.label > 0
  · rw [if_pos h1] at h
    by_cases h2 : a.label ≥ d.origin.length
    · rw [if_pos h2] at h; cases h
    · rw [if_neg h2] at h; exact setEntry_even h he
  · rw [if_neg h1] at h
    have := Res.pure_inj h
    subst this
    exact ⟨he, rfl⟩

theorem fillArcs_even {beta : A.D} {den : A.C} {uni : Bool} {s : Int} : ∀ {as : List (Arc A.C)} {d d' : Data A.C},
    fillArcs A beta den uni s as d = pure d' → Even d → Even d' ∧ d'.origin.length = d.origin.length
  | [], d, d', h, he => by have := Res.pure_inj h; subst this; exact ⟨he, rfl⟩
  | a :: as, d, d', h, he => by
    rw [fillArcs_cons] at h
    obtain ⟨d1, h1, h2⟩ := Res.bind_eq.mp h
    obtain ⟨k1, k2⟩ := fillArc_even h1 he
    obtain ⟨k3, k4⟩ := fillArcs_even h2 k1
    exact ⟨k3, k4.trans k2⟩

/-- an assignment cannot fault -/
theorem setEntry_fail {beta : A.D} {den : A.C} {uni : Bool} {s n : Int} {c : A.C} {i : Nat} {d : Data A.C} (he : Even d)
    (hi : i < d.origin.length) : setEntry A beta den uni s n c i d = Res.fail ∨
      ∃ d', setEntry A beta den uni s n c i d = pure d' ∧ Even d' ∧ d'.origin.length = d.origin.length := by
  obtain ⟨e1, e2⟩ := he
  obtain ⟨w, hw⟩ := exists_getElem?_of_lt (l := d.costs) (i := i) (by omega)
  have k : i < d.origin.length ∧ i < d.dest.length := by omega
  cases hu : updateIndexProb A c (A.cost beta) den w uni with
  | none => left; unfold setEntry; rw [if_pos k, hw]; simp only [hu]
  | some p =>
    have h : setEntry A beta den uni s n c i d = pure { d with
        origin := d.origin.set i s, dest := d.dest.set i n, costs := d.costs.set i p } := by
      unfold setEntry; rw [if_pos k, hw]; simp only [hu]
    exact .inr ⟨_, h, setEntry_even h ⟨e1, e2⟩⟩

theorem fillArc_fail {beta : A.D} {den : A.C} {uni : Bool} {s : Int} {a : Arc A.C} {d : Data A.C} (he : Even d) :
    fillArc A beta den uni s a d = Res.fail ∨
      ∃ d', fillArc A beta den uni s a d = pure d' ∧ Even d' ∧ d'.origin.length = d.origin.length := by
  unfold fillArc
  by_cases h1 : a.label > 0
  · rw [if_pos h1]
    by_cases h2 : a.label ≥ d.origin.length
    · rw [if_pos h2]; exact .inl rfl
    · rw [if_neg h2]; exact setEntry_fail he (by omega)
  · rw [if_neg h1]; exact .inr ⟨d, rfl, he, rfl⟩

theorem Res.fail_bind' {α β : Type} (f : α → Res β) : (Res.fail >>= f : Res β) = Res.fail := rfl

theorem Res.bind_assoc' {α β γ : Type} (x : Res α) (f : α → Res β) (g : β → Res γ) :
    (x >>= f) >>= g = x >>= fun a => f a >>= g := by
  match x with
  | .error e => rfl
  | .ok none => rfl
  | .ok (some a) => rfl

theorem fillArc_comm {beta : A.D} {den : A.C} {uni : Bool} {s : Int} {a b : Arc A.C} (hab : a.label ≠ b.label)
    {d : Data A.C} (he : Even d) : (fillArc A beta den uni s a d >>= fillArc A beta den uni s b) =
      (fillArc A beta den uni s b d >>= fillArc A beta den uni s a) := by
  by_cases ha : a.label > 0
  swap
  · have h1 : ∀ d, fillArc A beta den uni s a d = pure d := fun d => by unfold fillArc; rw [if_neg ha]
    have h2 : fillArc A beta den uni s a = pure := funext h1
    rw [h2, Res.pure_bind]
    rcases fillArc_fail (beta := beta) (den := den) (uni := uni) (s := s) (a := b) he with h | ⟨d', h, _⟩
    · rw [h]; rfl
    · rw [h]; rfl
  by_cases hb : b.label > 0
  swap
  · have h1 : ∀ d, fillArc A beta den uni s b d = pure d := fun d => by unfold fillArc; rw [if_neg hb]
    have h2 : fillArc A beta den uni s b = pure := funext h1
    rw [h2, Res.pure_bind]
    rcases fillArc_fail (beta := beta) (den := den) (uni := uni) (s := s) (a := a) he with h | ⟨d', h, _⟩
    · rw [h]; rfl
    · rw [h]; rfl
  by_cases ha2 : a.label ≥ d.origin.length
  · have h1 : fillArc A beta den uni s a d = Res.fail := by unfold fillArc; rw [if_pos ha, if_pos ha2]
    rw [h1, Res.fail_bind']
    rcases fillArc_fail (beta := beta) (den := den) (uni := uni) (s := s) (a := b) he with h | ⟨d', h, _, h'⟩
    · rw [h]; rfl
    · rw [h, Res.pure_bind]
      unfold fillArc; rw [if_pos ha, if_pos (by omega)]
  by_cases hb2 : b.label ≥ d.origin.length
  · have h1 : fillArc A beta den uni s b d = Res.fail := by unfold fillArc; rw [if_pos hb, if_pos hb2]
    rw [h1, Res.fail_bind']
    rcases fillArc_fail (beta := beta) (den := den) (uni := uni) (s := s) (a := a) he with h | ⟨d', h, _, h'⟩
    · rw [h]; rfl
    · rw [h, Res.pure_bind]
      unfold fillArc; rw [if_pos hb, if_pos (by omega)]
  have key : ∀ (x y : Arc A.C), x.label > 0 → y.label > 0 → ¬ x.label ≥ d.origin.length → ¬ y.label ≥ d.origin.length →
      (fillArc A beta den uni s x d >>= fillArc A beta den uni s y) =
      (setEntry A beta den uni s x.next x.weight x.label.toNat d >>= setEntry A beta den uni s y.next y.weight y.label.toNat) := by
    intro x y hx hy hx2 hy2
    have h1 : fillArc A beta den uni s x d = setEntry A beta den uni s x.next x.weight x.label.toNat d := by
      unfold fillArc; rw [if_pos hx, if_neg hx2]
    rw [h1]
    rcases setEntry_fail (beta := beta) (den := den) (uni := uni) (s := s) (n := x.next) (c := x.weight)
      (i := x.label.toNat) he (by omega) with h | ⟨d', h, _, h'⟩
    · rw [h]; rfl
    · rw [h, Res.pure_bind, Res.pure_bind]
      unfold fillArc; rw [if_pos hy, if_neg (by omega)]
  rw [key a b ha hb ha2 hb2, key b a hb ha hb2 ha2]
  exact setEntry_comm (by omega) he (by omega) (by omega)

theorem fillArcs_shuffle {beta : A.D} {den : A.C} {uni : Bool} {s : Int} {l l' : List (Arc A.C)} (h : Shuffle l l') :
    ∀ {d : Data A.C}, Even d → fillArcs A beta den uni s l d = fillArcs A beta den uni s l' d := by
  induction h with
  | nil => intro d _; rfl
  | cons a _ ih =>
    intro d he
    rw [fillArcs_cons, fillArcs_cons]
    rcases fillArc_fail (beta := beta) (den := den) (uni := uni) (s := s) (a := a) he with h | ⟨d', h, h1, _⟩
    · rw [h]; rfl
    · rw [h, Res.pure_bind, Res.pure_bind]; exact ih h1
  | swap a b l hne =>
    intro d he
    have e : ∀ (x y : Arc A.C), fillArcs A beta den uni s (x :: y :: l) d =
        (fillArc A beta den uni s x d >>= fillArc A beta den uni s y) >>= fillArcs A beta den uni s l := by
      intro x y
      rw [fillArcs_cons, Res.bind_assoc']
      congr 1
      funext d'
      rw [fillArcs_cons]
    rw [e, e, fillArc_comm hne he]
  | trans _ _ ih1 ih2 => intro d he; exact (ih1 he).trans (ih2 he)

theorem StateLike.denominator {st st' : FState A.C} (h : StateLike A st st') (alpha : A.D) :
    denominatorOf A alpha st = denominatorOf A alpha st' := by
  cases h with
  | same e => rw [e]
  | node h1 h2 h3 h4 h5 =>
    unfold denominatorOf
    rw [h3, h4]
    simp only [totalFrom, if_pos h1]
  | root h1 h2 h3 h4 =>
    unfold denominatorOf
    rw [h2, totalFrom_shuffle h1 h4 _ h3]

theorem StateLike.length {st st' : FState A.C} (h : StateLike A st st') : st.arcs.length = st'.arcs.length := by
  cases h with
  | same e => rw [e]
  | node h1 h2 h3 h4 h5 => rw [h3, h4]; simp [h5.length_eq]
  | root h1 h2 h3 h4 => exact h4.length_eq

theorem StateLike.initData {st st' : FState A.C} (h : StateLike A st st') (alpha beta : A.D) (den : A.C) (bo : Int)
    (bd : Data A.C) : initData A alpha beta den bo st bd = initData A alpha beta den bo st' bd := by
  unfold Ppm.initData gammaOf
  rw [h.length, h.final]

theorem initData_even {alpha beta : A.D} {den : A.C} {bo : Int} {st : FState A.C} {bd : Data A.C} (he : Even bd) :
    Even (initData A alpha beta den bo st bd) := by
  unfold initData
  by_cases h : bo ≥ 0
  · rw [if_pos h]; simpa [Even] using he
  · rw [if_neg h]; simp [Even]

theorem finalEntry_even {f : Fst A.C} {beta : A.D} {den : A.C} {s bo : Int} {st : FState A.C} {d d' : Data A.C}
    (h : finalEntry A f beta den s bo st d = pure d') (he : Even d) : Even d' := by
  unfold finalEntry at h
  by_cases hi : A.isInf st.final
  · rw [if_pos hi] at h
    by_cases hb : bo < 0
    · rw [if_pos hb] at h; cases h
    · rw [if_neg hb] at h
      have := Res.pure_inj h
      subst this
      exact he
  · rw [if_neg hi] at h
    exact (setEntry_even h he).1

theorem stateData_even {f : Fst A.C} {alpha beta : A.D} {s bo : Int} {bd d : Data A.C}
    (h : stateData A f alpha beta s bo bd = pure d) (he : Even bd) : Even d := by
  unfold stateData at h
  obtain ⟨no, _, h⟩ := Res.bind_eq.mp h
  cases no with
  | true =>
    have := Res.pure_inj h
    subst this
    exact he
  | false =>
    simp only [Bool.false_eq_true, if_false] at h
    cases hst : f.state? s with
    | none => rw [hst] at h; cases h
    | some st =>
      rw [hst] at h
      simp only [updateStatesAndProbs] at h
      obtain ⟨d1, h1, h⟩ := Res.bind_eq.mp h
      obtain ⟨d2, h2, h⟩ := Res.bind_eq.mp h
      have e1 := finalEntry_even h1 (initData_even he)
      have e2 := (fillArcs_even h2 e1).1
      cases hc : d2.costs with
      | nil => rw [hc] at h; cases h
      | cons c cs =>
        rw [hc] at h
        simp only [Scores.softmaxRenormalize] at h
        have := Res.pure_inj h
        subst this
        simpa [Even, hc] using e2

theorem stateData_like {f g : Fst A.C} (h : FstLike A f g) (alpha beta : A.D) (s bo : Int) {bd : Data A.C} (he : Even bd) :
    stateData A f alpha beta s bo bd = stateData A g alpha beta s bo bd := by
  unfold stateData
  rw [noObservations_like h]
  refine (Agree.eq_bind fun no => Agree.of_eq ?_).eq
  cases no with
  | true => rfl
  | false =>
    simp only [Bool.false_eq_true, if_false]
    have := h.state? s
    generalize f.state? s = x at this ⊢
    generalize g.state? s = y at this ⊢
    cases this with
    | none => rfl
    | @some st st' hl =>
      simp only
      rw [hl.denominator alpha, hl.initData]
      unfold updateStatesAndProbs
      have e1 : ∀ d, finalEntry A f beta (denominatorOf A alpha st') s bo st d =
          finalEntry A g beta (denominatorOf A alpha st') s bo st' d := by
        intro d; unfold finalEntry; rw [hl.final, h.start]
      rw [e1]
      have he0 := initData_even (alpha := alpha) (beta := beta) (den := denominatorOf A alpha st') (bo := bo) (st := st') he
      generalize hx : finalEntry A g beta (denominatorOf A alpha st') s bo st'
        (initData A alpha beta (denominatorOf A alpha st') bo st' bd) = x
      match x, hx with
      | .error e, _ => rfl
      | .ok none, _ => rfl
      | .ok (some d), hx =>
        have he1 := finalEntry_even hx he0
        have e2 : fillArcs A beta (denominatorOf A alpha st') (decide (bo < 0)) s st.arcs d =
            fillArcs A beta (denominatorOf A alpha st') (decide (bo < 0)) s st'.arcs d := by
          cases hl with
          | same e => rw [e]
          | node h1 h2 h3 h4 h5 => rw [h3, h4]; exact fillArcs_shuffle (.cons _ h5) he1
          | root h1 h2 h3 h4 => exact fillArcs_shuffle h4 he1
        show (fillArcs A beta (denominatorOf A alpha st') (decide (bo < 0)) s st.arcs d >>= _) =
          (fillArcs A beta (denominatorOf A alpha st') (decide (bo < 0)) s st'.arcs d >>= _)
        rw [e2]

end
end Mozolm.Ppm
