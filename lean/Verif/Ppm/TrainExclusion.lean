import Verif.Ppm.Train
import Verif.Ppm.Numeric

/-! # What `CalculateUpdateExclusions` does to an automaton -/

namespace Mozolm.Ppm
open XR Classical

/-- label and target of an arc -/
def Arc.shape (a : Arc XR) : Int × Nat := (a.label, a.next)

/-- Same states, labels, targets and final states. -/
structure SameShape (f g : Fst XR) : Prop where
  len : g.states.length = f.states.length
  arcs : ∀ s : Nat, (g.states[s]?.map fun st => st.arcs.map Arc.shape) = f.states[s]?.map fun st => st.arcs.map Arc.shape
  final : ∀ s : Nat, (g.states[s]?.map fun st => decide (st.final = .pinf)) =
    f.states[s]?.map fun st => decide (st.final = .pinf)

theorem SameShape.refl (f : Fst XR) : SameShape f f := ⟨rfl, fun _ => rfl, fun _ => rfl⟩

theorem SameShape.trans {f g h : Fst XR} (a : SameShape f g) (b : SameShape g h) : SameShape f h :=
  ⟨b.len.trans a.len, fun s => (b.arcs s).trans (a.arcs s), fun s => (b.final s).trans (a.final s)⟩

/-- the leading epsilon arc of a state, given by shapes -/
def shapeBackoff : List (Int × Nat) → Option Nat
  | [] => none
  | p :: _ => if p.1 = 0 then some p.2 else none

theorem backoff_shape (f : Fst XR) (s : Nat) :
    backoff f s = (f.states[s]?.map fun st => st.arcs.map Arc.shape).bind shapeBackoff := by
  unfold backoff
  cases f.states[s]? with
  | none => rfl
  | some st =>
    simp only [Option.map_some, Option.bind_some]
    cases st.arcs with
    | nil => rfl
    | cons a as => rfl

theorem SameShape.backoff {f g : Fst XR} (h : SameShape f g) (s : Nat) : backoff g s = backoff f s := by
  rw [backoff_shape, backoff_shape, h.arcs]

theorem arcLabels_shape (st : FState XR) :
    arcLabels st = ((st.arcs.map Arc.shape).map Prod.fst).filter fun l => decide (0 < l) := by
  unfold arcLabels
  rw [List.map_map]; rfl

theorem SameShape.state {f g : Fst XR} (h : SameShape f g) {s : Nat} {st' : FState XR} (hs : g.states[s]? = some st') :
    ∃ st, f.states[s]? = some st ∧ st'.arcs.map Arc.shape = st.arcs.map Arc.shape ∧ arcLabels st' = arcLabels st ∧
      (st'.final = .pinf ↔ st.final = .pinf) := by
  have h1 := h.arcs s
  have h2 := h.final s
  rw [hs] at h1 h2
  cases hf : f.states[s]? with
  | none => rw [hf] at h1; cases h1
  | some st =>
    rw [hf] at h1 h2
    simp only [Option.map_some, Option.some.injEq, decide_eq_decide] at h1 h2
    exact ⟨st, rfl, h1, by rw [arcLabels_shape, arcLabels_shape, h1], h2⟩

/-- Every state has an arc, every backoff arc leads to a state. -/
structure Rooted (f : Fst XR) : Prop where
  arcs : ∀ (s : Nat) (st : FState XR), f.states[s]? = some st → st.arcs ≠ []
  backoff : ∀ s b, Ppm.backoff f s = some b → b < f.states.length

theorem SameShape.rooted {f g : Fst XR} (h : SameShape f g) (hf : Rooted f) : Rooted g := by
  refine ⟨?_, ?_⟩
  · intro s st' hs
    obtain ⟨st, h1, h2, _⟩ := h.state hs
    have := hf.arcs s st h1
    intro e
    rw [e] at h2
    simp only [List.map_nil] at h2
    exact this (List.map_eq_nil_iff.mp h2.symm)
  · intro s b hb
    rw [h.backoff] at hb
    rw [h.len]
    exact hf.backoff s b hb

theorem Rooted.getBackoff {f : Fst XR} (h : Rooted f) {s : Nat} (hs : s < f.states.length) :
    getBackoffState f (s : Int) = pure (match Ppm.backoff f s with | some b => (b : Int) | none => -1) := by
  obtain ⟨st, hst⟩ := exists_getElem?_of_lt hs
  unfold getBackoffState
  rw [state?_nat, hst]
  unfold Ppm.backoff
  rw [hst]
  simp only
  cases ha : st.arcs with
  | nil => exact absurd ha (h.arcs s st hst)
  | cons a as =>
    simp only
    by_cases h0 : a.label = 0
    · rw [if_pos h0, if_pos h0]
    · rw [if_neg h0, if_neg h0]

/-- whether some state backs off to `x` -/
def BackedOff (f : Fst XR) (x : Nat) : Prop := ∃ s, backoff f s = some x

theorem backoff_lt {f : Fst XR} {s b : Nat} (h : backoff f s = some b) : s < f.states.length := by
  unfold backoff at h
  cases hst : f.states[s]? with
  | none => rw [hst] at h; cases h
  | some st => exact lt_of_getElem?_eq_some hst

/-- the loop that marks the states backed off to -/
theorem markBackoff_ok {f : Fst XR} (h : Rooted f) : ∀ (k s : Nat) (bs : List Bool), s + k = f.states.length →
    bs.length = f.states.length →
    ∃ bs', markBackoff f k s bs = pure bs' ∧ bs'.length = bs.length ∧
      ∀ x : Nat, x < bs.length → (bs'[x]? = some true ↔ bs[x]? = some true ∨ ∃ t, s ≤ t ∧ backoff f t = some x) := by
  intro k
  induction k with
  | zero =>
    intro s bs hk _
    refine ⟨bs, rfl, rfl, fun x _ => ⟨Or.inl, ?_⟩⟩
    rintro (h1 | ⟨t, h1, h2⟩)
    · exact h1
    · have := backoff_lt h2; omega
  | succ k ih =>
    intro s bs hk hlen
    unfold markBackoff
    rw [h.getBackoff (by omega), Res.pure_bind]
    cases hb : backoff f s with
    | none =>
      simp only
      rw [if_neg (by omega), if_neg (by omega)]
      obtain ⟨bs', h1, h2, h3⟩ := ih (s + 1) bs (by omega) hlen
      refine ⟨bs', h1, h2, fun x hx => (h3 x hx).trans ?_⟩
      constructor
      · rintro (h4 | ⟨t, h4, h5⟩)
        · exact .inl h4
        · exact .inr ⟨t, by omega, h5⟩
      · rintro (h4 | ⟨t, h4, h5⟩)
        · exact .inl h4
        · have : t ≠ s := by rintro rfl; rw [hb] at h5; cases h5
          exact .inr ⟨t, by omega, h5⟩
    | some b =>
      have hbl := h.backoff s b hb
      simp only
      rw [if_neg (by omega), if_pos (by omega), toNat_coe]
      obtain ⟨bs', h1, h2, h3⟩ := ih (s + 1) (bs.set b true) (by omega) (by simpa using hlen)
      refine ⟨bs', h1, by simpa using h2, fun x hx => (h3 x (by simpa using hx)).trans ?_⟩
      have hset : (bs.set b true)[x]? = some true ↔ bs[x]? = some true ∨ x = b := by
        by_cases e : b = x
        · subst e
          rw [List.getElem?_set_self (by omega)]
          simp
        · rw [List.getElem?_set_ne e]
          constructor
          · exact .inl
          · rintro (h | h)
            · exact h
            · exact absurd h.symm e
      rw [hset]
      constructor
      · rintro ((h4 | h4) | ⟨t, h4, h5⟩)
        · exact .inl h4
        · subst h4; exact .inr ⟨s, by omega, hb⟩
        · exact .inr ⟨t, by omega, h5⟩
      · rintro (h4 | ⟨t, h4, h5⟩)
        · exact .inl (.inl h4)
        · by_cases e : t = s
          · subst e
            rw [hb] at h5
            injection h5 with h5
            exact .inl (.inr h5.symm)
          · exact .inr ⟨t, by omega, h5⟩

theorem determineBackoffStates_ok {f : Fst XR} (h : Rooted f) :
    ∃ bs, determineBackoffStates f = pure bs ∧ bs.length = f.states.length ∧
      ∀ x : Nat, bs[x]? = some true ↔ BackedOff f x := by
  obtain ⟨bs, h1, h2, h3⟩ := markBackoff_ok h f.states.length 0 (List.replicate f.states.length false) (by simp) (by simp)
  refine ⟨bs, h1, by simpa using h2, fun x => ?_⟩
  by_cases hx : x < f.states.length
  · rw [h3 x (by simpa using hx)]
    rw [List.getElem?_replicate_of_lt hx]
    simp [BackedOff]
  · constructor
    · intro h4
      have := lt_of_getElem?_eq_some h4
      rw [h2] at this; simp at this; omega
    · rintro ⟨s, hs⟩
      exact absurd (h.backoff s x hs) hx

/-! ## Counting at the shorter contexts -/

/-- how many of the `k` states from `lo` on back off to `x` and have an arc labelled `y` -/
noncomputable def raised (f : Fst XR) (lo k x : Nat) (y : Int) : Nat :=
  (List.range' lo k).countP fun s => decide (backoff f s = some x ∧ ∃ st, f.states[s]? = some st ∧ y ∈ arcLabels st)

/-- how many of the `k` states from `lo` on back off to `x` and are final -/
noncomputable def finalRaised (f : Fst XR) (lo k x : Nat) : Nat :=
  (List.range' lo k).countP fun s => decide (backoff f s = some x ∧ ∃ st, f.states[s]? = some st ∧ st.final ≠ .pinf)

theorem raised_congr {f g : Fst XR} (h : SameShape f g) (lo k x : Nat) (y : Int) :
    raised g lo k x y = raised f lo k x y := by
  unfold raised
  refine List.countP_congr fun s _ => ?_
  simp only [decide_eq_true_eq, h.backoff]
  refine and_congr_right fun hb => ?_
  obtain ⟨st', hst'⟩ := exists_getElem?_of_lt (l := g.states) (i := s) (by rw [h.len]; exact backoff_lt hb)
  obtain ⟨st, h1, _, h2, _⟩ := h.state hst'
  constructor
  · rintro ⟨st2, h3, h4⟩
    rw [hst'] at h3; injection h3 with h3; subst h3
    exact ⟨st, h1, by rw [← h2]; exact h4⟩
  · rintro ⟨st2, h3, h4⟩
    rw [h1] at h3; injection h3 with h3; subst h3
    exact ⟨st', hst', by rw [h2]; exact h4⟩

theorem finalRaised_congr {f g : Fst XR} (h : SameShape f g) (lo k x : Nat) :
    finalRaised g lo k x = finalRaised f lo k x := by
  unfold finalRaised
  refine List.countP_congr fun s _ => ?_
  simp only [decide_eq_true_eq, h.backoff]
  refine and_congr_right fun hb => ?_
  obtain ⟨st', hst'⟩ := exists_getElem?_of_lt (l := g.states) (i := s) (by rw [h.len]; exact backoff_lt hb)
  obtain ⟨st, h1, _, _, h2⟩ := h.state hst'
  constructor
  · rintro ⟨st2, h3, h4⟩
    rw [hst'] at h3; injection h3 with h3; subst h3
    exact ⟨st, h1, fun e => h4 (h2.mpr e)⟩
  · rintro ⟨st2, h3, h4⟩
    rw [h1] at h3; injection h3 with h3; subst h3
    exact ⟨st', hst', fun e => h4 (h2.mp e)⟩

/-- a state with `n y` added to the count of every symbol and `m` to the final weight -/
noncomputable def plus (n : Int → Nat) (m : Nat) (st : FState XR) : FState XR :=
  { final := add st.final (.fin m)
    arcs := st.arcs.map fun a => if 0 < a.label then { a with weight := add a.weight (.fin (n a.label)) } else a }

theorem add_add_fin (w : XR) (a b : ℝ) : add (add w (.fin a)) (.fin b) = add w (.fin (a + b)) := by
  cases w <;> simp [add]; ring

theorem add_fin_zero (w : XR) : add w (.fin 0) = w := by
  cases w <;> simp [add]

theorem add_fin_pinf (w : XR) (a : ℝ) : add w (.fin a) = .pinf ↔ w = .pinf := by
  cases w <;> simp [add]

theorem plus_zero (st : FState XR) : plus (fun _ => 0) 0 st = st := by
  unfold plus
  simp only [Nat.cast_zero, add_fin_zero, ite_self]
  rw [List.map_id'']
  intro a; rfl

theorem plus_plus (n n' : Int → Nat) (m m' : Nat) (st : FState XR) :
    plus n' m' (plus n m st) = plus (fun y => n y + n' y) (m + m') st := by
  unfold plus
  simp only [add_add_fin, List.map_map, FState.mk.injEq]
  refine ⟨by push_cast; rfl, List.map_congr_left fun a _ => ?_⟩
  simp only [Function.comp_apply]
  by_cases h : 0 < a.label
  · simp only [if_pos h, add_add_fin]; push_cast; rfl
  · simp only [if_neg h]

theorem plus_shape (n : Int → Nat) (m : Nat) (st : FState XR) :
    (plus n m st).arcs.map Arc.shape = st.arcs.map Arc.shape := by
  unfold plus
  rw [List.map_map]
  refine List.map_congr_left fun a _ => ?_
  simp only [Function.comp_apply]
  by_cases h : 0 < a.label
  · rw [if_pos h]; rfl
  · rw [if_neg h]

theorem incrementState_eq (labels : List Int) (b : Bool) (st : FState XR) :
    incrementState labels b st = plus (fun y => if y ∈ labels then 1 else 0) (if b = true then 1 else 0) st := by
  unfold incrementState plus
  simp only [FState.mk.injEq]
  refine ⟨?_, List.map_congr_left fun a _ => ?_⟩
  · cases b
    · simp [add_fin_zero]
    · simp
  · by_cases h : 0 < a.label
    · by_cases h' : a.label ∈ labels
      · simp [h, h']
      · simp [h, h', add_fin_zero]
    · simp [h]

theorem sameShape_of {f g : Fst XR} (n : Nat → Int → Nat) (m : Nat → Nat)
    (h : ∀ x : Nat, g.states[x]? = f.states[x]?.map (plus (n x) (m x))) : SameShape f g := by
  refine ⟨?_, ?_, ?_⟩
  · by_contra hne
    rcases Nat.lt_or_gt_of_ne hne with h1 | h1
    · have := h g.states.length
      rw [List.getElem?_eq_none (le_refl _), List.getElem?_eq_getElem h1] at this
      cases this
    · have := h f.states.length
      rw [List.getElem?_eq_none (le_refl f.states.length), List.getElem?_eq_getElem h1] at this
      cases this
  · intro s; rw [h]; cases f.states[s]? <;> simp [plus_shape]
  · intro s; rw [h]; cases f.states[s]? <;> simp [plus, add_fin_pinf]

theorem raised_succ (f : Fst XR) (lo k x : Nat) (y : Int) :
    raised f lo (k + 1) x y =
      (if backoff f lo = some x ∧ ∃ st, f.states[lo]? = some st ∧ y ∈ arcLabels st then 1 else 0) +
        raised f (lo + 1) k x y := by
  unfold raised
  rw [List.range'_succ, List.countP_cons, add_comm]
  congr 1
  simp only [decide_eq_true_eq]

theorem finalRaised_succ (f : Fst XR) (lo k x : Nat) :
    finalRaised f lo (k + 1) x =
      (if backoff f lo = some x ∧ ∃ st, f.states[lo]? = some st ∧ st.final ≠ .pinf then 1 else 0) +
        finalRaised f (lo + 1) k x := by
  unfold finalRaised
  rw [List.range'_succ, List.countP_cons, add_comm]
  congr 1
  simp only [decide_eq_true_eq]

theorem incrementLoop_ok : ∀ (k s : Nat) (f : Fst XR), Rooted f → s + k = f.states.length →
    ∃ g, incrementLoop k s f = pure g ∧ g.start = f.start ∧
      ∀ x : Nat, g.states[x]? = f.states[x]?.map (plus (raised f s k x) (finalRaised f s k x)) := by
  intro k
  induction k with
  | zero =>
    intro s f _ _
    refine ⟨f, rfl, rfl, fun x => ?_⟩
    have h1 : raised f s 0 x = fun _ => 0 := by funext y; simp [raised]
    have h2 : finalRaised f s 0 x = 0 := by simp [finalRaised]
    rw [h1, h2]
    cases f.states[x]? <;> simp [plus_zero]
  | succ k ih =>
    intro s f h hk
    unfold incrementLoop
    rw [h.getBackoff (by omega), Res.pure_bind]
    cases hb : backoff f s with
    | none =>
      simp only
      rw [if_neg (by omega)]
      obtain ⟨g, h1, h2, h3⟩ := ih (s + 1) f h (by omega)
      refine ⟨g, h1, h2, fun x => ?_⟩
      rw [h3]
      have e1 : raised f s (k + 1) x = raised f (s + 1) k x := by
        funext y; rw [raised_succ, if_neg (by rw [hb]; simp), Nat.zero_add]
      have e2 : finalRaised f s (k + 1) x = finalRaised f (s + 1) k x := by
        rw [finalRaised_succ, if_neg (by rw [hb]; simp), Nat.zero_add]
      rw [e1, e2]
    | some b =>
      have hbl := h.backoff s b hb
      obtain ⟨bst, hbst⟩ := exists_getElem?_of_lt hbl
      obtain ⟨st, hst⟩ := exists_getElem?_of_lt (backoff_lt hb)
      simp only
      rw [if_pos (by omega), toNat_coe, hbst, hst]
      simp only
      rw [setState_nat]
      set f' : Fst XR := { f with states := f.states.set b (incrementState (arcLabels st) (decide (st.final ≠ .pinf)) bst) } with hf'
      have key : ∀ x : Nat, f'.states[x]? = f.states[x]?.map (plus
          (fun y => if backoff f s = some x ∧ ∃ st, f.states[s]? = some st ∧ y ∈ arcLabels st then 1 else 0)
          (if backoff f s = some x ∧ ∃ st, f.states[s]? = some st ∧ st.final ≠ .pinf then 1 else 0)) := by
        intro x
        simp only [hf']
        by_cases e : b = x
        · subst e
          rw [List.getElem?_set_self hbl, hbst, Option.map_some, incrementState_eq]
          congr 1
          congr 1
          · funext y
            rw [hb, hst]
            simp
          · rw [hb, hst]
            simp
        · rw [List.getElem?_set_ne e]
          have e' : backoff f s ≠ some x := by rw [hb]; simpa using e
          simp only [e', false_and, if_false]
          cases f.states[x]? <;> simp [plus_zero]
      have hsh : SameShape f f' := sameShape_of _ _ key
      obtain ⟨g, h1, h2, h3⟩ := ih (s + 1) f' (hsh.rooted h) (by rw [hsh.len]; omega)
      refine ⟨g, h1, h2, fun x => ?_⟩
      rw [h3, key, Option.map_map]
      congr 1
      funext st'
      simp only [Function.comp_apply, plus_plus]
      congr 1
      · funext y; rw [raised_congr hsh, raised_succ]
      · rw [finalRaised_congr hsh, finalRaised_succ]

/-! ## The whole computation -/

/-- the counts of a shorter context with update exclusion -/
noncomputable def exclState (n : Int → Nat) (m : Nat) (st : FState XR) : FState XR :=
  { final := if st.final = .pinf then .pinf else costOf m
    arcs := st.arcs.map fun a =>
      if 0 < a.label then { a with weight := costOf (n a.label) }
      else { a with weight := costOf ((((st.arcs.filter fun a => decide (0 < a.label)).map fun a => (n a.label : ℝ)).sum) +
          if st.final = .pinf then 0 else (m : ℝ)) } }

theorem logArcs_ok (n : Int → Nat) : ∀ (arcs : List (Arc XR)) (sum : ℝ), (∀ a ∈ arcs, 0 < a.label → 0 < n a.label) →
    logArcs (arcs.map fun a => if 0 < a.label then { a with weight := .fin (n a.label) } else a) (.fin sum) =
      some (arcs.map (fun a => if 0 < a.label then { a with weight := costOf (n a.label) } else a),
        .fin (sum + ((arcs.filter fun a => decide (0 < a.label)).map fun a => (n a.label : ℝ)).sum)) := by
  intro arcs
  induction arcs with
  | nil => intro sum _; simp [logArcs]
  | cons a as ih =>
    intro sum h
    have ih' := fun s => ih s (fun b hb => h b (List.mem_cons_of_mem _ hb))
    rw [List.map_cons]
    unfold logArcs
    by_cases hl : 0 < a.label
    · simp only [if_pos hl]
      have hn := h a (by simp) hl
      have hn' : (0 : ℝ) < n a.label := by exact_mod_cast hn
      rw [if_neg (by simp only [le]; linarith)]
      simp only [add]
      rw [ih']
      rw [List.filter_cons, if_pos (by simpa using hl)]
      simp only [List.map_cons, List.sum_cons, if_pos hl, negLog_fin hn'.le, add_assoc]
    · simp only [if_neg hl]
      rw [ih']
      simp only [List.map_cons, if_neg hl, List.filter_cons, hl, decide_false, Bool.false_eq_true, if_false]

theorem plus_zeroState (n : Int → Nat) (m : Nat) (st : FState XR) :
    plus n m (zeroState st) =
      { final := if st.final = .pinf then .pinf else .fin m
        arcs := (st.arcs.map fun a => { a with weight := .fin 0 }).map fun a =>
          if 0 < a.label then { a with weight := .fin (n a.label) } else a } := by
  unfold plus zeroState
  simp only [FState.mk.injEq]
  refine ⟨?_, ?_⟩
  · by_cases h : st.final = .pinf
    · rw [if_pos h, if_pos h, h]; rfl
    · rw [if_neg h, if_neg h]; simp [add]
  · rw [List.map_map, List.map_map]
    refine List.map_congr_left fun a _ => ?_
    simp only [Function.comp_apply]
    by_cases h : 0 < a.label
    · rw [if_pos h, if_pos h]; simp [add]
    · rw [if_neg h, if_neg h]

/-- the state has a symbol, and only the first arc may be an epsilon arc -/
theorem finalizeState_ok {n : Int → Nat} {m : Nat} {st : FState XR} (ha : st.arcs ≠ [])
    (hn : ∀ a ∈ st.arcs, 0 < a.label → 0 < n a.label) (hl : ∀ a ∈ st.arcs, 0 ≤ a.label)
    (hd : (st.arcs.map Arc.label).Nodup) (hz : ∀ a ∈ st.arcs, a.label = 0 → st.arcs.head? = some a)
    (hs : (∃ a ∈ st.arcs, 0 < a.label) ∨ (st.final ≠ .pinf ∧ 0 < m)) :
    finalizeState (plus n m (zeroState st)) = pure (exclState n m st) := by
  rw [plus_zeroState]
  unfold finalizeState
  have h1 := logArcs_ok n (st.arcs.map fun a => { a with weight := .fin 0 }) 0 (by
    intro a ha'
    obtain ⟨b, hb, rfl⟩ := List.mem_map.mp ha'
    exact hn b hb)
  rw [h1]
  simp only
  have hsum : (((st.arcs.map fun a => ({ a with weight := .fin 0 } : Arc XR)).filter fun a => decide (0 < a.label)).map
      fun a => (n a.label : ℝ)).sum = ((st.arcs.filter fun a => decide (0 < a.label)).map fun a => (n a.label : ℝ)).sum := by
    rw [List.filter_map, List.map_map]; rfl
  rw [hsum, zero_add]
  set S : ℝ := ((st.arcs.filter fun a => decide (0 < a.label)).map fun a => (n a.label : ℝ)).sum with hS
  have hfin : (if (if st.final = .pinf then XR.pinf else .fin (m : ℝ)) = .pinf then XR.pinf
      else negLog (if st.final = .pinf then XR.pinf else .fin (m : ℝ))) = if st.final = .pinf then .pinf else costOf m := by
    by_cases h : st.final = .pinf
    · simp [h]
    · simp only [h, if_false]; rw [if_neg (by simp), negLog_fin (Nat.cast_nonneg m)]
  have hadd : (if (if st.final = .pinf then XR.pinf else .fin (m : ℝ)) = .pinf then XR.fin S
      else add (.fin S) (if st.final = .pinf then XR.pinf else .fin (m : ℝ))) =
      .fin (S + if st.final = .pinf then 0 else (m : ℝ)) := by
    by_cases h : st.final = .pinf
    · simp [h]
    · simp only [h, if_false]; rw [if_neg (by simp)]; rfl
  have hif : (if (if st.final = .pinf then XR.pinf else .fin (m : ℝ)) = .pinf then
      (if st.final = .pinf then XR.pinf else .fin (m : ℝ))
      else negLog (if st.final = .pinf then XR.pinf else .fin (m : ℝ))) = if st.final = .pinf then .pinf else costOf m := by
    by_cases h : st.final = .pinf
    · simp [h]
    · simp only [h, if_false]; rw [if_neg (by simp), negLog_fin (Nat.cast_nonneg m)]
  rw [hadd, hif]
  have hSn : ∀ r ∈ (st.arcs.filter fun a => decide (0 < a.label)).map fun a => (n a.label : ℝ), (0 : ℝ) ≤ r := by
    intro r hr
    obtain ⟨a, _, rfl⟩ := List.mem_map.mp hr
    exact Nat.cast_nonneg _
  have hS0 : 0 ≤ S := List.sum_nonneg hSn
  have hpos : 0 < S + if st.final = .pinf then 0 else (m : ℝ) := by
    rcases hs with ⟨a, ha1, ha2⟩ | ⟨h2, h3⟩
    · have h4 : (n a.label : ℝ) ≤ S := List.single_le_sum hSn _ (List.mem_map.mpr ⟨a, List.mem_filter.mpr ⟨ha1, by simpa using ha2⟩, rfl⟩)
      have h5 : (0 : ℝ) < n a.label := by exact_mod_cast hn a ha1 ha2
      have h6 : (0 : ℝ) ≤ if st.final = .pinf then 0 else (m : ℝ) := by split <;> positivity
      linarith
    · rw [if_neg h2]
      have : (0 : ℝ) < m := by exact_mod_cast h3
      linarith
  unfold exclState
  rw [← hS]
  rw [List.map_map]
  cases harcs : st.arcs with
  | nil => exact absurd harcs ha
  | cons a rest =>
    rw [List.map_cons]
    simp only [Function.comp_apply]
    have hrest : (rest.map ((fun a => if 0 < a.label then { a with weight := costOf (n a.label) } else a) ∘
        fun a => ({ a with weight := .fin 0 } : Arc XR))) = rest.map fun a =>
        if 0 < a.label then { a with weight := costOf (n a.label) }
        else { a with weight := costOf (S + if st.final = .pinf then 0 else (m : ℝ)) } := by
      refine List.map_congr_left fun b hb => ?_
      simp only [Function.comp_apply]
      have hbp : 0 < b.label := by
        have h1 := hl b (by rw [harcs]; exact List.mem_cons_of_mem _ hb)
        by_contra hc
        have h2 : b.label = 0 := by omega
        have h3 := hz b (by rw [harcs]; exact List.mem_cons_of_mem _ hb) h2
        rw [harcs] at h3
        simp only [List.head?_cons, Option.some.injEq] at h3
        subst h3
        rw [harcs, List.map_cons, List.nodup_cons] at hd
        exact hd.1 (List.mem_map_of_mem hb)
      rw [if_pos hbp, if_pos hbp]
    by_cases h0 : a.label = 0
    · have hnp : ¬ 0 < a.label := by omega
      rw [if_neg hnp]
      simp only
      rw [if_pos h0, if_neg (by simp only [le]; linarith)]
      rw [negLog_fin hpos.le, hrest, List.map_cons, if_neg hnp]
    · have hp : 0 < a.label := by have := hl a (by rw [harcs]; simp); omega
      rw [if_pos hp]
      simp only
      rw [if_neg h0, hrest, List.map_cons, if_pos hp]

theorem finalizeLoop_ok (F : Nat → FState XR → FState XR) : ∀ (bs : List Bool) (sts : List (FState XR)) (k : Nat),
    bs.length = sts.length →
    (∀ (x : Nat) st, bs[x]? = some true → sts[x]? = some st → finalizeState st = pure (F (k + x) st)) →
    ∃ sts', finalizeLoop bs sts = pure sts' ∧ ∀ x : Nat, sts'[x]? =
      sts[x]?.map fun st => if bs[x]? = some true then F (k + x) st else st := by
  intro bs
  induction bs with
  | nil =>
    intro sts k hlen _
    have : sts = [] := List.length_eq_zero_iff.mp hlen.symm
    subst this
    exact ⟨[], rfl, by simp⟩
  | cons b bs ih =>
    intro sts k hlen h
    cases sts with
    | nil => cases hlen
    | cons st sts =>
      obtain ⟨sts', h1, h2⟩ := ih sts (k + 1) (by simpa using hlen) (by
        intro x st' hb hst
        have := h (x + 1) st' (by simpa using hb) (by simpa using hst)
        rw [this, Nat.add_right_comm, Nat.add_assoc])
      unfold finalizeLoop
      by_cases hb : b = true
      · subst hb
        rw [if_pos rfl, h 0 st (by simp) (by simp), Res.pure_bind, h1, Res.pure_bind]
        refine ⟨_, rfl, fun x => ?_⟩
        cases x with
        | zero => simp
        | succ x =>
          simp only [List.getElem?_cons_succ, h2]
          rw [Nat.add_right_comm, Nat.add_assoc]
      · rw [if_neg hb, Res.pure_bind, h1, Res.pure_bind]
        refine ⟨_, rfl, fun x => ?_⟩
        cases x with
        | zero => simp [hb]
        | succ x =>
          simp only [List.getElem?_cons_succ, h2]
          rw [Nat.add_right_comm, Nat.add_assoc]

/-- What is needed of the automaton the counter returns. -/
structure Countable (f : Fst XR) : Prop extends Rooted f where
  labels : ∀ (s : Nat) (st : FState XR), f.states[s]? = some st → ∀ a ∈ st.arcs, 0 ≤ a.label
  nodup : ∀ (s : Nat) (st : FState XR), f.states[s]? = some st → (st.arcs.map Arc.label).Nodup
  eps : ∀ (s : Nat) (st : FState XR), f.states[s]? = some st → ∀ a ∈ st.arcs, a.label = 0 → st.arcs.head? = some a
  seen : ∀ (x : Nat) (st : FState XR), BackedOff f x → f.states[x]? = some st → ∀ a ∈ st.arcs, 0 < a.label →
    0 < raised f 0 f.states.length x a.label
  any : ∀ (x : Nat) (st : FState XR), BackedOff f x → f.states[x]? = some st →
    (∃ a ∈ st.arcs, 0 < a.label) ∨ (st.final ≠ .pinf ∧ 0 < finalRaised f 0 f.states.length x)

theorem calculateUpdateExclusions_ok {f : Fst XR} (h : Countable f) :
    ∃ g, calculateUpdateExclusions f = pure g ∧ g.start = f.start ∧
      ∀ x : Nat, g.states[x]? = f.states[x]?.map fun st =>
        if BackedOff f x then exclState (raised f 0 f.states.length x) (finalRaised f 0 f.states.length x) st else st := by
  obtain ⟨bs, h1, h2, h3⟩ := determineBackoffStates_ok h.toRooted
  have hz : ∀ x : Nat, (zeroOut bs f).states[x]? = f.states[x]?.map fun st => if bs[x]? = some true then zeroState st else st := by
    intro x
    unfold zeroOut
    simp only [List.getElem?_zipWith]
    cases hf : f.states[x]? with
    | none => cases bs[x]? <;> simp
    | some st =>
      obtain ⟨b, hb⟩ := exists_getElem?_of_lt (l := bs) (i := x) (by rw [h2]; exact lt_of_getElem?_eq_some hf)
      rw [hb]; simp
  have hlenz : (zeroOut bs f).states.length = f.states.length := by
    unfold zeroOut; simp [h2]
  have hsh : SameShape f (zeroOut bs f) := by
    refine ⟨hlenz, ?_, ?_⟩
    · intro s; rw [hz]
      cases f.states[s]? with
      | none => rfl
      | some st =>
        simp only [Option.map_some]
        by_cases hb : bs[s]? = some true
        · rw [if_pos hb]; unfold zeroState; simp only [List.map_map]; rfl
        · rw [if_neg hb]
    · intro s; rw [hz]
      cases f.states[s]? with
      | none => rfl
      | some st =>
        simp only [Option.map_some]
        by_cases hb : bs[s]? = some true
        · rw [if_pos hb]; unfold zeroState
          by_cases hf : st.final = .pinf <;> simp [hf]
        · rw [if_neg hb]
  obtain ⟨g1, k1, k2, k3⟩ := incrementLoop_ok f.states.length 0 (zeroOut bs f) (hsh.rooted h.toRooted) (by rw [hlenz]; simp)
  have k3' : ∀ x : Nat, g1.states[x]? = f.states[x]?.map fun st =>
      plus (raised f 0 f.states.length x) (finalRaised f 0 f.states.length x) (if bs[x]? = some true then zeroState st else st) := by
    intro x
    rw [k3, hz, Option.map_map]
    have e1 : raised (zeroOut bs f) 0 f.states.length x = raised f 0 f.states.length x := by
      funext y; exact raised_congr hsh _ _ _ _
    rw [e1, finalRaised_congr hsh]; rfl
  have hlen1 : g1.states.length = f.states.length := by
    have := (sameShape_of _ _ k3).len
    rw [this, hlenz]
  let F : Nat → FState XR → FState XR := fun x _ =>
    match f.states[x]? with
    | some st => exclState (raised f 0 f.states.length x) (finalRaised f 0 f.states.length x) st
    | none => ⟨.pinf, []⟩
  obtain ⟨sts, q1, q2⟩ := finalizeLoop_ok F bs g1.states 0 (by rw [h2, hlen1]) (by
    intro x st' hb hst
    rw [k3'] at hst
    cases hf : f.states[x]? with
    | none => rw [hf] at hst; cases hst
    | some st =>
      rw [hf] at hst
      simp only [Option.map_some, Option.some.injEq, if_pos hb] at hst
      subst hst
      have hbo := (h3 x).mp hb
      simp only [F, Nat.zero_add, hf]
      exact finalizeState_ok (h.arcs x st hf) (h.seen x st hbo hf) (h.labels x st hf) (h.nodup x st hf) (h.eps x st hf)
        (h.any x st hbo hf))
  refine ⟨{ g1 with states := sts }, ?_, ?_, ?_⟩
  · unfold calculateUpdateExclusions
    rw [h1, Res.pure_bind, k1, Res.pure_bind, q1, Res.pure_bind]
  · simp only [k2]; rfl
  · intro x
    simp only
    rw [q2, k3', Option.map_map]
    cases hf : f.states[x]? with
    | none => rfl
    | some st =>
      simp only [Option.map_some, Function.comp_apply, F, Nat.zero_add, hf]
      by_cases hb : bs[x]? = some true
      · rw [if_pos hb, if_pos ((h3 x).mp hb)]
      · have hnb : ¬ BackedOff f x := fun hbo => hb ((h3 x).mpr hbo)
        rw [if_neg hb, if_neg hb, if_neg hnb]
        congr 1
        have e1 : raised f 0 f.states.length x = fun _ => 0 := by
          funext y
          unfold raised
          rw [List.countP_eq_zero]
          intro s _
          simp only [decide_eq_true_eq, not_and]
          intro hs; exact absurd ⟨s, hs⟩ hnb
        have e2 : finalRaised f 0 f.states.length x = 0 := by
          unfold finalRaised
          rw [List.countP_eq_zero]
          intro s _
          simp only [decide_eq_true_eq, not_and]
          intro hs; exact absurd ⟨s, hs⟩ hnb
        rw [e1, e2, plus_zero]

end Mozolm.Ppm
