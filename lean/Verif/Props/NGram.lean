import Verif.NGram.Spec

/-!
# C34, C36 and the n-gram parts of C14 and C28 (any arithmetic)

Quantified over every automaton with acyclic backoff, every state and every label.
-/

namespace Mozolm.NGram

variable {A : Arith}

theorem state?_nat {C : Type} (f : Fst C) (s : Nat) : f.state? (s : Int) = f.states[s]? := by
  simp only [Fst.state?, Int.toNat_natCast]
  rw [if_neg (by omega)]

theorem find?_split {α : Type} {p : α → Bool} {l : List α} {a : α} (h : l.find? p = some a) :
    p a = true ∧ ∃ pre post, l = pre ++ a :: post ∧ ∀ b ∈ pre, p b = false := by
  obtain ⟨h1, pre, post, h2, h3⟩ := List.find?_eq_some_iff_append.1 h
  exact ⟨h1, pre, post, h2, fun b hb => by simpa using h3 b hb⟩

/-- The two possible outcomes of `GetBackoff` at an existing state. -/
theorem getBackoff_spec (f : Fst A.C) {s : Nat} (hs : s < f.states.length) :
    (∃ w t, IsBackoff f s w t ∧ getBackoff A f s = .ok ((t : Int), w)) ∨
    ((∀ w t, ¬ IsBackoff f s w t) ∧ getBackoff A f s = .ok (-1, A.one)) := by
  obtain ⟨st, hst⟩ := exists_getElem?_of_lt hs
  have hne : ¬ ((s : Int) = -1) := by omega
  simp only [getBackoff, if_neg hne, state?_nat, hst]
  cases hf : st.arcs.find? (fun a => a.label == 0 && (a.next : Int) != s) with
  | some a =>
    obtain ⟨ha, pre, post, he, hpre⟩ := find?_split hf
    simp only [Bool.and_eq_true, beq_iff_eq, bne_iff_ne, ne_eq] at ha
    refine .inl ⟨a.weight, a.next, ⟨st, pre, post, hst, ?_, by omega, ?_⟩, rfl⟩
    · rw [he, ← ha.1]
    · intro b hb h0
      have := hpre b hb
      simp only [h0, beq_self_eq_true, Bool.true_and, bne_eq_false_iff_eq] at this
      omega
  | none =>
    rw [List.find?_eq_none] at hf
    refine .inr ⟨?_, rfl⟩
    rintro w t ⟨st', pre, post, hst', he, hne', _⟩
    rw [hst] at hst'; cases hst'
    have := hf ⟨0, w, t⟩ (by rw [he]; simp)
    simp only [beq_self_eq_true, Bool.true_and, bne_iff_ne, ne_eq, Classical.not_not] at this
    omega

/-- Backoff is a function. -/
theorem IsBackoff.unique {C : Type} {f : Fst C} {s t t' : Nat} {w w' : C} (h : IsBackoff f s w t)
    (h' : IsBackoff f s w' t') : w = w' ∧ t = t' := by
  obtain ⟨st, pre, post, h1, h2, h3, h4⟩ := h
  obtain ⟨st', pre', post', h1', h2', h3', h4'⟩ := h'
  rw [h1] at h1'; cases h1'
  rw [h2] at h2'
  clear h2 h1
  induction pre generalizing pre' with
  | nil =>
    cases pre' with
    | nil => simp only [List.nil_append, List.cons.injEq, Arc.mk.injEq, true_and] at h2'
             exact h2'.1
    | cons b pre' =>
      simp only [List.nil_append, List.cons_append, List.cons.injEq] at h2'
      have := h4' b (by simp) (by rw [← h2'.1])
      rw [← h2'.1] at this
      exact absurd this h3
  | cons a pre ih =>
    cases pre' with
    | nil =>
      simp only [List.nil_append, List.cons_append, List.cons.injEq] at h2'
      have := h4 a (by simp) (by rw [h2'.1])
      rw [h2'.1] at this
      exact absurd this h3'
    | cons b pre' =>
      simp only [List.cons_append, List.cons.injEq] at h2'
      exact ih (fun x hx => h4 x (by simp [hx])) pre' (fun x hx => h4' x (by simp [hx])) h2'.2

theorem IsBackoff.lt {C : Type} {f : Fst C} (hc : Closed f) {s t : Nat} {w : C}
    (h : IsBackoff f s w t) : t < f.states.length := by
  obtain ⟨st, pre, post, h1, h2, _⟩ := h
  exact hc.2 st (List.mem_of_getElem? h1) ⟨0, w, t⟩ (by rw [h2]; simp)

/-- A walk that does not stop at `s` starts with the backoff of `s`. -/
theorem Walk.tail {C : Type} {f : Fst C} {s t u : Nat} {w : C} {ws : List C} (h : Walk f s ws u)
    (hb : IsBackoff f s w t) (hne : ws ≠ []) : ∃ ws', ws = w :: ws' ∧ Walk f t ws' u := by
  cases h with
  | here => exact absurd rfl hne
  | step hb' h' =>
    obtain ⟨rfl, rfl⟩ := hb.unique hb'
    exact ⟨_, rfl, h'⟩

/-- What a search for a label at an existing state can find, when it is neither 0 nor -1. -/
theorem matchFirst_spec (f : Fst A.C) {s : Nat} {st : FState A.C} (hst : f.states[s]? = some st)
    {label : Int} (h0 : label ≠ 0) (h1 : label ≠ -1) :
    (∃ w d, FirstArc f s label w d ∧ Fst.matchFirst A.one st s label = some (w, (d : Int))) ∨
    (NoArc f s label ∧ Fst.matchFirst A.one st s label = none) := by
  simp only [Fst.matchFirst, if_neg h0, if_neg h1]
  cases hf : st.arcs.find? (fun a => a.label == label) with
  | some a =>
    obtain ⟨ha, pre, post, he, hpre⟩ := find?_split hf
    simp only [beq_iff_eq] at ha
    refine .inl ⟨a.weight, a.next, ⟨st, pre, post, hst, by rw [he, ← ha], fun b hb => ?_⟩, rfl⟩
    simpa using hpre b hb
  | none =>
    rw [List.find?_eq_none] at hf
    refine .inr ⟨?_, rfl⟩
    intro st' hst' a ha
    rw [hst] at hst'; cases hst'
    simpa using hf a ha

/-- The outcome of a search along the backoff chain: the first state on the chain with the label. -/
def Found (f : Fst A.C) (s : Nat) (label : Int) (ws : List A.C) (w : A.C) (d : Nat) : Prop :=
  ∃ t, Walk f s ws t ∧ FirstArc f t label w d ∧ Before f s t (fun u => NoArc f u label)

theorem Found.back {f : Fst A.C} {s t : Nat} {label : Int} {b : A.C} {ws : List A.C} {w : A.C}
    {d : Nat} (hb : IsBackoff f s b t) (hn : NoArc f s label) (h : Found f t label ws w d) :
    Found f s label (b :: ws) w d := by
  obtain ⟨u, h1, h2, h3⟩ := h
  refine ⟨u, .step hb h1, h2, ?_⟩
  intro xs ys v hv hvu hne
  by_cases e : xs = []
  · subst e
    cases hv
    exact hn
  · obtain ⟨xs', _, hv'⟩ := hv.tail hb e
    exact h3 xs' ys v hv' hvu hne

theorem search_spec (f : Fst A.C) (hc : Closed f) {rank : Nat → Nat}
    (hr : ∀ s w t, IsBackoff f s w t → rank t < rank s) {label : Int} (h0 : label ≠ 0)
    (h1 : label ≠ -1) (unigram : Int) :
    ∀ (k : Nat) (s : Nat), rank s < k → s < f.states.length → ∀ fuel, k + 1 ≤ fuel → ∀ acc,
      (∃ ws w d, Found f s label ws w d ∧
        nextModelState A f unigram label fuel s = .ok (d : Int) ∧
        labelLoop A f label fuel s acc = .ok ((ws ++ [w]).foldl A.times acc)) ∨
      ((∀ ws t, Walk f s ws t → NoArc f t label) ∧
        nextModelState A f unigram label fuel s = .ok unigram ∧
        labelLoop A f label fuel s acc = .ok A.inf) := by
  intro k
  induction k with
  | zero => intro s hk; exact absurd hk (Nat.not_lt_zero _)
  | succ k ih =>
    intro s hk hs fuel hfuel acc
    obtain ⟨fuel, rfl⟩ : ∃ n, fuel = n + 1 := ⟨fuel - 1, by omega⟩
    obtain ⟨st, hst⟩ := exists_getElem?_of_lt hs
    have hn1 : ¬ ((s : Int) = -1) := by omega
    have hn2 : ¬ ((s : Int) < 0) := by omega
    simp only [nextModelState, labelLoop, if_neg hn1, if_neg hn2, state?_nat, hst]
    rcases matchFirst_spec f hst h0 h1 with ⟨w, d, hfa, hm⟩ | ⟨hno, hm⟩
    · left
      refine ⟨[], w, d, ⟨s, .here s, hfa, ?_⟩, by rw [hm], by rw [hm]; rfl⟩
      intro xs ys v hv hvu hne
      -- a walk from s back to s would lower the rank below itself
      exfalso
      have key : ∀ {a b : Nat} {zs : List A.C}, Walk f a zs b → rank b ≤ rank a ∧ (zs ≠ [] → rank b < rank a) := by
        intro a b zs hw
        induction hw with
        | here => exact ⟨Nat.le_refl _, fun h => absurd rfl h⟩
        | step hb _ ih => have := hr _ _ _ hb; exact ⟨by omega, fun _ => by omega⟩
      have a1 := (key hv).1
      have a2 := (key hvu).2 hne
      omega
    · rcases getBackoff_spec f hs with ⟨b, t, hb, hg⟩ | ⟨hnb, hg⟩
      · simp only [hm, hg, ok_bind]
        have hlt := hr _ _ _ hb
        rcases ih t (by omega) (hb.lt hc) fuel (by omega) (A.times acc b) with
          ⟨ws, w, d, hF, e1, e2⟩ | ⟨hnone, e1, e2⟩
        · exact .inl ⟨b :: ws, w, d, hF.back hb hno, e1, by rw [e2]; rfl⟩
        · refine .inr ⟨?_, e1, e2⟩
          intro ws u hw
          by_cases e : ws = []
          · subst e; cases hw; exact hno
          · obtain ⟨ws', _, hw'⟩ := hw.tail hb e
            exact hnone ws' u hw'
      · simp only [hm, hg, ok_bind]
        obtain ⟨fuel, rfl⟩ : ∃ n, fuel = n + 1 := ⟨fuel - 1, by omega⟩
        refine .inr ⟨?_, by simp [nextModelState], by simp [labelLoop]⟩
        intro ws u hw
        cases hw with
        | here => exact hno
        | step hb' _ => exact absurd hb' (hnb _ _)

/-- **C34** For every automaton whose arcs stay inside it and whose backoff is acyclic, every state and
every label other than 0 and -1, the searches of `NextModelState` and `LabelCostInState` terminate
(with any fuel from some bound on), and:
either the label is found — the state returned is the target of the first arc with the label at the
first state along the backoff chain that has one, and the cost is the sum of the backoff costs walked
and of the arc;
or no state of the chain has the label — the unigram state is returned and the cost is infinite. -/
theorem C34_longest_match {f : Fst A.C} (hc : Closed f) (ha : Acyclic f) (unigram : Int) {label : Int}
    (h0 : label ≠ 0) (h1 : label ≠ -1) {s : Nat} (hs : s < f.states.length) :
    ∃ bound, ∀ fuel, bound ≤ fuel →
      (∃ ws w d, Found f s label ws w d ∧
        nextModelState A f unigram label fuel s = .ok (d : Int) ∧
        labelCostInState A f fuel s label = .ok ((ws ++ [w]).foldl A.times A.one)) ∨
      ((∀ ws t, Walk f s ws t → NoArc f t label) ∧
        nextModelState A f unigram label fuel s = .ok unigram ∧
        labelCostInState A f fuel s label = .ok A.inf) := by
  obtain ⟨rank, hr⟩ := ha
  refine ⟨rank s + 2, fun fuel hf => ?_⟩
  simp only [labelCostInState, if_neg h0]
  exact search_spec f hc hr h0 h1 unigram (rank s + 1) s (by omega) hs fuel (by omega) A.one

/-- What the final-cost search finds: the first state along the chain whose final weight is not
infinite. -/
theorem finalLoop_spec (f : Fst A.C) (hc : Closed f) {rank : Nat → Nat}
    (hr : ∀ s w t, IsBackoff f s w t → rank t < rank s) :
    ∀ (k : Nat) (s : Nat), rank s < k → s < f.states.length → ∀ fuel, k ≤ fuel → ∀ acc,
      (∃ b t ws u st, IsBackoff f s b t ∧ Walk f t ws u ∧ f.states[u]? = some st ∧
        A.isInf st.final = false ∧
        Before f t u (fun v => ∀ x, f.states[v]? = some x → A.isInf x.final = true) ∧
        finalLoop A f fuel s acc = .ok (A.times st.final ((b :: ws).foldl A.times acc))) ∨
      ((∀ b t ws u x, IsBackoff f s b t → Walk f t ws u → f.states[u]? = some x →
          A.isInf x.final = true) ∧
        finalLoop A f fuel s acc = .ok A.inf) := by
  intro k
  induction k with
  | zero => intro s hk; exact absurd hk (Nat.not_lt_zero _)
  | succ k ih =>
    intro s hk hs fuel hfuel acc
    obtain ⟨fuel, rfl⟩ : ∃ n, fuel = n + 1 := ⟨fuel - 1, by omega⟩
    simp only [finalLoop]
    rcases getBackoff_spec f hs with ⟨b, t, hb, hg⟩ | ⟨hnb, hg⟩
    · have htl := hb.lt hc
      obtain ⟨st, hst⟩ := exists_getElem?_of_lt htl
      have hn2 : ¬ ((t : Int) < 0) := by omega
      have hlt := hr _ _ _ hb
      simp only [hg, ok_bind, if_neg hn2, state?_nat, hst]
      by_cases hi : A.isInf st.final = true
      · rw [if_pos hi]
        rcases ih t (by omega) htl fuel (by omega) (A.times acc b) with
          ⟨b', t', ws, u, x, g1, g2, g3, g4, g5, g6⟩ | ⟨g1, g2⟩
        · refine .inl ⟨b, t, b' :: ws, u, x, hb, .step g1 g2, g3, g4, ?_, by rw [g6]; rfl⟩
          intro xs ys v hv hvu hne
          by_cases e : xs = []
          · subst e
            cases hv
            intro y hy
            rw [hst] at hy; cases hy
            exact hi
          · obtain ⟨xs', _, hv'⟩ := hv.tail g1 e
            exact g5 xs' ys v hv' hvu hne
        · refine .inr ⟨?_, g2⟩
          intro b1 t1 ws u x hb1 hw hx
          obtain ⟨_, rfl⟩ := hb.unique hb1
          cases hw with
          | here => rw [hst] at hx; cases hx; exact hi
          | step hb2 hw2 => exact g1 _ _ _ _ _ hb2 hw2 hx
      · rw [if_neg hi]
        refine .inl ⟨b, t, [], t, st, hb, .here t, hst, by simpa using hi, ?_, rfl⟩
        intro xs ys v hv hvu hne
        exfalso
        have key : ∀ {a b : Nat} {zs : List A.C}, Walk f a zs b →
            rank b ≤ rank a ∧ (zs ≠ [] → rank b < rank a) := by
          intro a b zs hw
          induction hw with
          | here => exact ⟨Nat.le_refl _, fun h => absurd rfl h⟩
          | step hb _ ih => have := hr _ _ _ hb; exact ⟨by omega, fun _ => by omega⟩
        have a1 := (key hv).1
        have a2 := (key hvu).2 hne
        omega
    · simp only [hg, ok_bind, Int.reduceNeg, Int.reduceLT, if_true]
      exact .inr ⟨fun b t ws u x hb => absurd hb (hnb _ _), trivial⟩

/-- **C34** (end of string) The cost of the end of string is the final weight of the first state along
the backoff chain that is final, plus the backoff costs walked; infinite if there is none. -/
theorem C34_end_of_string {f : Fst A.C} (hc : Closed f) (ha : Acyclic f) {s : Nat}
    (hs : s < f.states.length) :
    ∃ bound, ∀ fuel, bound ≤ fuel →
      (∃ ws t st, Walk f s ws t ∧ f.states[t]? = some st ∧ A.isInf st.final = false ∧
        Before f s t (fun v => ∀ x, f.states[v]? = some x → A.isInf x.final = true) ∧
        labelCostInState A f fuel s 0 =
          .ok (if ws = [] then st.final else A.times st.final (ws.foldl A.times A.one))) ∨
      ((∀ ws t x, Walk f s ws t → f.states[t]? = some x → A.isInf x.final = true) ∧
        labelCostInState A f fuel s 0 = .ok A.inf) := by
  obtain ⟨rank, hr⟩ := ha
  refine ⟨rank s + 1, fun fuel hf => ?_⟩
  obtain ⟨st, hst⟩ := exists_getElem?_of_lt hs
  simp only [labelCostInState, if_true, finalCostInState, state?_nat, hst]
  by_cases hi : A.isInf st.final = true
  · rw [if_pos hi]
    rcases finalLoop_spec f hc hr (rank s + 1) s (by omega) hs fuel hf A.one with
      ⟨b, t, ws, u, x, g1, g2, g3, g4, g5, g6⟩ | ⟨g1, g2⟩
    · refine .inl ⟨b :: ws, u, x, .step g1 g2, g3, g4, ?_, by rw [g6, if_neg (by simp)]⟩
      intro xs ys v hv hvu hne
      by_cases e : xs = []
      · subst e
        cases hv
        intro y hy
        rw [hst] at hy; cases hy
        exact hi
      · obtain ⟨xs', _, hv'⟩ := hv.tail g1 e
        exact g5 xs' ys v hv' hvu hne
    · refine .inr ⟨?_, g2⟩
      intro ws t x hw hx
      cases hw with
      | here => rw [hst] at hx; cases hx; exact hi
      | step hb hw' => exact g1 _ _ _ _ _ hb hw' hx
  · rw [if_neg hi]
    refine .inl ⟨[], s, st, .here s, hst, by simpa using hi, ?_, by rw [if_pos rfl]⟩
    intro xs ys v hv hvu hne
    exfalso
    have key : ∀ {a b : Nat} {zs : List A.C}, Walk f a zs b →
        rank b ≤ rank a ∧ (zs ≠ [] → rank b < rank a) := by
      intro a b zs hw
      induction hw with
      | here => exact ⟨Nat.le_refl _, fun h => absurd rfl h⟩
      | step hb _ ih => have := hr _ _ _ hb; exact ⟨by omega, fun _ => by omega⟩
    have a1 := (key hv).1
    have a2 := (key hvu).2 hne
    omega

/-- **C34** NextState at an existing state always ends in an existing state: with any symbol, whatever
label it has. -/
theorem C34_next_valid {m : Model A.C} (hc : Closed m.fst) (ha : Acyclic m.fst)
    (hu : 0 ≤ m.unigram ∧ m.unigram < m.fst.states.length) (encode : Int → Str) (sym : Int) {s : Int}
    (hs : s = -1 ∨ (0 ≤ s ∧ s < m.fst.states.length)) :
    ∃ bound, ∀ fuel, bound ≤ fuel → ∃ r, nextState encode fuel m s sym = .ok r ∧
      0 ≤ r ∧ r < m.fst.states.length := by
  have hcur : 0 ≤ checkCurrentState m s ∧ checkCurrentState m s < m.fst.states.length := by
    simp only [checkCurrentState]
    split
    · rw [if_neg (by omega)]; exact hu
    · rcases hs with h | h
      · contradiction
      · exact h
  obtain ⟨c, hcn⟩ : ∃ n : Nat, checkCurrentState m s = n := ⟨_, (Int.toNat_of_nonneg hcur.1).symm⟩
  have hcl : c < m.fst.states.length := by omega
  simp only [nextState, hcn]
  generalize symLabel encode m sym = label
  obtain ⟨rank, hr⟩ := ha
  by_cases h0 : label = 0
  · refine ⟨1, fun fuel hf => ⟨c, ?_, by omega, by omega⟩⟩
    obtain ⟨fuel, rfl⟩ : ∃ n, fuel = n + 1 := ⟨fuel - 1, by omega⟩
    obtain ⟨st, hst⟩ := exists_getElem?_of_lt hcl
    have hn1 : ¬ ((c : Int) = -1) := by omega
    simp only [nextModelState, if_neg hn1, state?_nat, hst, Fst.matchFirst, if_pos h0]
  · by_cases h1 : label = -1
    · subst h1
      refine ⟨2, fun fuel hf => ?_⟩
      obtain ⟨fuel, rfl⟩ : ∃ n, fuel = n + 2 := ⟨fuel - 2, by omega⟩
      obtain ⟨st, hst⟩ := exists_getElem?_of_lt hcl
      have hn1 : ¬ ((c : Int) = -1) := by omega
      simp only [nextModelState, if_neg hn1, state?_nat, hst, Fst.matchFirst, Int.reduceNeg,
        Int.reduceEq, if_false, if_true]
      cases hf' : st.arcs.find? (fun a => a.label == 0) with
      | some a =>
        have := hc.2 st (List.mem_of_getElem? hst) a (List.mem_of_find?_eq_some hf')
        exact ⟨a.next, rfl, by omega, by omega⟩
      | none =>
        rcases getBackoff_spec m.fst hcl with ⟨b, t, hb, _⟩ | ⟨_, hg⟩
        · obtain ⟨st', pre, post, g1, g2, _⟩ := hb
          rw [hst] at g1; cases g1
          rw [List.find?_eq_none] at hf'
          have := hf' ⟨0, b, t⟩ (by rw [g2]; simp)
          simp at this
        · simp only [hg, ok_bind, Int.reduceNeg, if_true]
          exact ⟨m.unigram, rfl, hu⟩
    · refine ⟨rank c + 2, fun fuel hf => ?_⟩
      rcases search_spec m.fst hc hr h0 h1 m.unigram (rank c + 1) c (by omega) hcl fuel (by omega) A.one
        with ⟨ws, w, d, ⟨t, _, ⟨st, pre, post, g1, g2, _⟩, _⟩, e1, _⟩ | ⟨_, e1, _⟩
      · have := hc.2 st (List.mem_of_getElem? g1) ⟨label, w, d⟩ (by rw [g2]; simp)
        exact ⟨d, e1, by omega, by simpa using this⟩
      · exact ⟨m.unigram, e1, hu⟩

/-! ## C36 -/

/-- A character outside the vocabulary, in a model whose vocabulary has no `<unk>`. -/
def OutOfVocabulary (encode : Int → Str) (m : Model A.C) (sym : Int) : Prop :=
  sym ≠ 0 ∧ m.oov = -1 ∧ ∀ e ∈ m.symbols, e.2 ≠ encode sym

/-- **C36** (what the code does) without `<unk>`, an unknown character behaves exactly as the backoff
arc: from a state with one, `NextState` is one backoff step and its cost is the backoff cost; from a
state without any epsilon arc, `NextState` is the unigram state and the cost is infinite. -/
theorem C36_unknown_takes_backoff {m : Model A.C} {encode : Int → Str} {sym : Int}
    (ho : OutOfVocabulary encode m sym) {s : Nat} {st : FState A.C}
    (hst : m.fst.states[s]? = some st) {fuel : Nat} (hf : 2 ≤ fuel) :
    (∀ w t, FirstArc m.fst s 0 w t →
      nextState encode fuel m s sym = .ok (t : Int) ∧
      symLMScore encode fuel m s sym = .ok (A.times A.one w)) ∧
    (NoArc m.fst s 0 →
      nextState encode fuel m s sym = .ok m.unigram ∧ symLMScore encode fuel m s sym = .ok A.inf) := by
  obtain ⟨h0, hoov, hno⟩ := ho
  have hlab : symLabel encode m sym = -1 := by
    simp only [symLabel, if_neg h0]
    have : m.symbols.find? (fun e => e.2 == encode sym) = none := by
      rw [List.find?_eq_none]
      intro e he
      simpa using hno e he
    simp [SymbolTable.findLabel, this, hoov]
  obtain ⟨fuel, rfl⟩ : ∃ n, fuel = n + 2 := ⟨fuel - 2, by omega⟩
  have hn1 : ¬ ((s : Int) = -1) := by omega
  have hn2 : ¬ ((s : Int) < 0) := by omega
  have hcur : checkCurrentState m (s : Int) = s := by simp only [checkCurrentState, if_neg hn1]
  refine ⟨?_, ?_⟩
  · rintro w t ⟨st', pre, post, g1, g2, g3⟩
    rw [hst] at g1; cases g1
    have hfind : st.arcs.find? (fun a => a.label == 0) = some ⟨0, w, t⟩ := by
      rw [List.find?_eq_some_iff_append]
      exact ⟨by simp, pre, post, g2, fun a ha => by simpa using g3 a ha⟩
    simp only [nextState, symLMScore, hlab, hcur, nextModelState, labelCostInState, labelLoop,
      if_neg hn1, if_neg hn2, state?_nat, hst, Fst.matchFirst, Int.reduceNeg, Int.reduceEq, if_false,
      if_true, hfind, and_self]
  · intro hna
    have hfind : st.arcs.find? (fun a => a.label == 0) = none := by
      rw [List.find?_eq_none]
      intro a ha
      simpa using hna st hst a ha
    have hg : getBackoff A m.fst s = .ok (-1, A.one) := by
      rcases getBackoff_spec (A := A) m.fst (lt_of_getElem?_eq_some hst) with ⟨b, t, hb, _⟩ | ⟨_, hg⟩
      · obtain ⟨st', pre, post, g1, g2, _⟩ := hb
        rw [hst] at g1; cases g1
        have := hna st hst ⟨0, b, t⟩ (by rw [g2]; simp)
        exact absurd rfl this
      · exact hg
    simp only [nextState, symLMScore, hlab, hcur, nextModelState, labelCostInState, labelLoop,
      if_neg hn1, if_neg hn2, state?_nat, hst, Fst.matchFirst, Int.reduceNeg, Int.reduceEq, if_false,
      if_true, hfind, hg, ok_bind, Int.reduceLT, and_self]

/-- A trigram model over one letter `a` (label 1): state 0 unigram, 1 start, 2 = after `a`,
3 = after `aa`. -/
def demoFst : Fst Unit :=
  { start := 1
    states := [ { final := (), arcs := [⟨1, (), 2⟩] },
                { final := (), arcs := [⟨0, (), 0⟩, ⟨1, (), 2⟩] },
                { final := (), arcs := [⟨0, (), 0⟩, ⟨1, (), 3⟩] },
                { final := (), arcs := [⟨0, (), 2⟩, ⟨1, (), 3⟩] } ] }

/-- The demo model as read: symbols `<epsilon>` and `a`, no `<unk>`. -/
def demo : Model Unit := { fst := demoFst, symbols := [(0, [60]), (1, [97])], oov := -1, unigram := 0
                           hiOrder := 3 }

theorem demo_closed : Closed demoFst := ⟨by decide, by decide⟩

theorem demo_acyclic : Acyclic demoFst := by
  refine ⟨fun s => if s = 3 then 2 else if s = 0 then 0 else 1, ?_⟩
  rintro s w t ⟨st, pre, post, h1, h2, _⟩
  have hm : (⟨0, w, t⟩ : Arc Unit) ∈ st.arcs := by rw [h2]; simp
  match s, h1 with
  | 0, h1 => cases h1; simp at hm
  | 1, h1 => cases h1; simp at hm; subst hm; decide
  | 2, h1 => cases h1; simp at hm; subst hm; decide
  | 3, h1 => cases h1; simp at hm; subst hm; decide
  | n + 4, h1 => simp [demoFst] at h1

/-- The hypotheses of `C34_longest_match` are met by a real model: the search for `a` at the trigram
state stays there. -/
example : nextModelState Arith.unit demoFst 0 1 5 3 = .ok 3 := rfl

/-- **C36** as documented (ngram_fst_model.h: "If the label is out-of-vocabulary, it will return the
unigram state") is false: at the trigram state an unknown character leads to the bigram state. -/
theorem C36_false : ∃ (m : Model Unit) (sym s r : Int), OutOfVocabulary (A := Arith.unit) (fun c => [c.toNat]) m sym ∧
    Closed m.fst ∧ Acyclic m.fst ∧ (∀ fuel, 2 ≤ fuel →
      nextState (A := Arith.unit) (fun c => [c.toNat]) fuel m s sym = .ok r) ∧ r ≠ m.unigram := by
  refine ⟨demo, 98, 3, 2, ⟨by decide, rfl, by decide⟩, demo_closed, demo_acyclic, ?_, by decide⟩
  intro fuel hf
  exact ((C36_unknown_takes_backoff (A := Arith.unit) (m := demo)
    (encode := fun c => [c.toNat]) (sym := 98) ⟨by decide, rfl, by decide⟩ (s := 3) rfl hf).1 () 2
    ⟨_, [], _, rfl, rfl, by simp⟩).1

/-! ## C59: start state -/

/-- **C59** is false: the start state used for a character n-gram model is 0, which need not be the start state
of the automaton (in the demo model it is the unigram state). -/
theorem C59_false : ∃ m : Model Unit, Closed m.fst ∧ Acyclic m.fst ∧
    startState (A := Arith.unit) m ≠ m.fst.start ∧ startState (A := Arith.unit) m = m.unigram :=
  ⟨demo, demo_closed, demo_acyclic, by decide, rfl⟩

/-- **C59** the start state is the automaton's exactly when that is state 0. -/
theorem C59_iff (m : Model A.C) : startState m = m.fst.start ↔ m.fst.start = 0 := by
  simp only [startState]; omega

/-! ## C14, C28: updates are no-ops -/

/-- **C14/C28** (n-gram models) `UpdateLMCounts` returns true and changes nothing, for any state,
symbols and count; so any query answers as before. -/
theorem C28_ngram_static (m : Model A.C) (ups : List (Int × List Int × Int)) :
    (ups.foldl (fun m u => (updateLMCounts m u.1 u.2.1 u.2.2).2) m) = m ∧
    ∀ u ∈ ups, (updateLMCounts m u.1 u.2.1 u.2.2).1 = true := by
  refine ⟨?_, fun _ _ => rfl⟩
  induction ups with
  | nil => rfl
  | cons u ups ih => exact ih

/-! ## Read -/

/-- **C60** `Read` succeeds exactly when a model file is given and readable, there is a symbol table (in
the file or as a readable vocabulary file), and the automaton is a normalised language model; the model
then answers from exactly that automaton and table, and its unigram state is the state the start state
backs off to, or the start state itself. -/
theorem C60_read {src : Source A.C} (hc : ∀ f, src.fst = some f → f.start < f.states.length)
    (m : Model A.C) :
    read A src = .ok (some m) ↔
      src.noFile = false ∧ src.fst = some m.fst ∧
      (src.inSymbols = some m.symbols ∨
        (src.inSymbols = none ∧ src.noVocabulary = false ∧ src.vocabulary = some m.symbols)) ∧
      src.canonical m.fst = true ∧ src.normalized m.fst = true ∧
      m.oov = m.symbols.findLabel [60, 117, 110, 107, 62] ∧ m.hiOrder = src.maxOrder m.fst ∧
      ((∃ w t, IsBackoff m.fst m.fst.start w t ∧ m.unigram = t) ∨
        ((∀ w t, ¬ IsBackoff m.fst m.fst.start w t) ∧ m.unigram = m.fst.start)) := by
  have hu : ([60, 117, 110, 107, 62] : Str) = unknownSymbol := rfl
  rw [hu]
  simp only [read]
  cases hnf : src.noFile with
  | true => simp
  | false =>
    simp only [Bool.false_eq_true, if_false, true_and]
    cases hfst : src.fst with
    | none => simp
    | some f =>
      have hs := hc f hfst
      have hsym' : ∀ t, (src.inSymbols = some t ∨ (src.inSymbols = none ∧ src.noVocabulary = false ∧
          src.vocabulary = some t)) ↔ symbolTable src = some t := by
        intro t
        simp only [symbolTable]
        cases src.inSymbols with
        | some x => simp
        | none => cases src.noVocabulary <;> simp
      rw [hsym']
      cases symbolTable src with
      | none => simp
      | some t =>
        simp only [Option.some.injEq]
        rcases getBackoff_spec (A := A) f hs with ⟨w, d, hb, hg⟩ | ⟨hnb, hg⟩
        · have hd : ¬ ((d : Int) = -1) := by omega
          simp only [hg, ok_bind, if_neg hd]
          constructor
          · intro h
            by_cases hcan : src.canonical f = true
            case neg => rw [if_pos (by simpa using hcan)] at h; cases h
            · by_cases hnor : src.normalized f = true
              case neg => rw [if_neg (by simp [hcan]), if_pos (by simpa using hnor)] at h; cases h
              · rw [if_neg (by simp [hcan]), if_neg (by simp [hnor])] at h
                cases h
                exact ⟨rfl, rfl, hcan, hnor, rfl, rfl,
                  .inl ⟨w, d, hb, rfl⟩⟩
          · rintro ⟨rfl, rfl, h1, h2, h3, h4, h5⟩
            rw [if_neg (by simp [h1]), if_neg (by simp [h2])]
            rcases h5 with ⟨w', d', hb', hu⟩ | ⟨hn, _⟩
            · obtain ⟨_, rfl⟩ := hb.unique hb'
              rw [← h3, ← h4, ← hu]
            · exact absurd hb (hn _ _)
        · simp only [hg, ok_bind, if_true]
          constructor
          · intro h
            by_cases hcan : src.canonical f = true
            case neg => rw [if_pos (by simpa using hcan)] at h; cases h
            · by_cases hnor : src.normalized f = true
              case neg => rw [if_neg (by simp [hcan]), if_pos (by simpa using hnor)] at h; cases h
              · rw [if_neg (by simp [hcan]), if_neg (by simp [hnor])] at h
                cases h
                exact ⟨rfl, rfl, hcan, hnor, rfl, rfl, .inr ⟨hnb, rfl⟩⟩
          · rintro ⟨rfl, rfl, h1, h2, h3, h4, h5⟩
            rw [if_neg (by simp [h1]), if_neg (by simp [h2])]
            rcases h5 with ⟨w', d', hb', _⟩ | ⟨_, hu⟩
            · exact absurd hb' (hnb _ _)
            · rw [← h3, ← h4, ← hu]

end Mozolm.NGram
