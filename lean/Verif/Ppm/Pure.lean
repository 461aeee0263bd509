import Verif.Ppm.Spec

/-! # Lemmas on the cache-free part of the PPM model -/

namespace Mozolm.Ppm
variable {A : Arith}

namespace Res
variable {α β : Type}

@[simp] theorem pure_bind (a : α) (f : α → Res β) : ((pure a : Res α) >>= f) = f a := rfl
@[simp] theorem fail_bind (f : α → Res β) : ((Res.fail : Res α) >>= f) = Res.fail := rfl
@[simp] theorem fault_bind (e : Fault) (f : α → Res β) :
    ((Res.fault e : Res α) >>= f) = Res.fault e := rfl
@[simp] theorem need_some (a : α) : Res.need (some a) = pure a := rfl

theorem bind_eq {x : Res α} {f : α → Res β} {b : β} :
    (x >>= f) = pure b ↔ ∃ a, x = pure a ∧ f a = pure b := by
  constructor
  · intro h
    match x, h with
    | .error e, h => cases h
    | .ok none, h => cases h
    | .ok (some a), h => exact ⟨a, rfl, h⟩
  · rintro ⟨a, rfl, h⟩; exact h

theorem pure_inj {a b : α} (h : (pure a : Res α) = pure b) : a = b := by
  injection h with h; injection h

end Res

theorem state?_nat {C : Type} (f : Fst C) (s : Nat) : f.state? (s : Int) = f.states[s]? := by
  simp [Fst.state?]
  intro h; omega

theorem toNat_coe (s : Nat) : (s : Int).toNat = s := by simp

theorem setState_nat {C : Type} (f : Fst C) (s : Nat) (st : FState C) :
    setState f (s : Int) st = { f with states := f.states.set s st } := rfl

/-- the signed id of an optional state -/
def idOf : Option Nat → Int
  | some b => b
  | none => -1

theorem getBackoffState_eq {C : Type} {f : Fst C} {s : Nat} {st : FState C}
    (h : f.states[s]? = some st) (hne : st.arcs ≠ []) :
    getBackoffState f (s : Int) = pure (idOf (backoff f s)) := by
  unfold getBackoffState backoff
  rw [state?_nat, h]
  cases hst : st.arcs with
  | nil => exact absurd hst hne
  | cons a as =>
    simp only [hst]
    by_cases hl : a.label = 0 <;> simp [hl, idOf]

theorem noObservations_eq {f : Fst A.C} {s : Nat} {st : FState A.C} {a : Arc A.C} {as : List (Arc A.C)}
    (h : f.states[s]? = some st) (ha : st.arcs = a :: as) :
    noObservations A f (s : Int) =
      pure (A.isInf st.final && (as.length == 0) && (a.label == 0)) := by
  unfold noObservations
  rw [state?_nat, h]
  simp only [ha, List.length_cons]
  congr 3
  simp

section Basics
variable {Ok : A.C → Prop} {f : Fst A.C} {ord : Nat → Nat} {mo : Int} {V u : Nat}

theorem StateOk.arcs_ne_nil {n s : Nat} {st : FState A.C} (hV : 0 < V)
    (h : StateOk A Ok n ord mo V u s st) : st.arcs ≠ [] := by
  intro he
  by_cases hs : s = u
  · have := (h.unigram hs).2.1; rw [he] at this; simp at this; omega
  · obtain ⟨_, w, b, rest, hr, _⟩ := h.node hs; rw [he] at hr; cases hr

theorem StateOk.label_nonneg {n s : Nat} {st : FState A.C}
    (h : StateOk A Ok n ord mo V u s st) {a : Arc A.C} (ha : a ∈ st.arcs) : 0 ≤ a.label := by
  by_cases hl : a.label = 0
  · omega
  · have := (h.arcs a ha hl).2.2.2.1; omega

theorem WF.exists_state (h : WF A Ok f ord mo V u) {s : Nat} (hs : s < f.states.length) :
    ∃ st, f.states[s]? = some st ∧ StateOk A Ok f.states.length ord mo V u s st := by
  obtain ⟨st, hst⟩ := exists_getElem?_of_lt hs
  exact ⟨st, hst, h.states s st hst⟩

theorem WF.backoff_u (h : WF A Ok f ord mo V u) : backoff f u = none := by
  obtain ⟨st, hst, ok⟩ := h.exists_state h.u_lt
  unfold backoff
  rw [hst]
  cases ha : st.arcs with
  | nil => simp [ha]
  | cons a as =>
    have := (ok.unigram rfl).2.2.1 a (by simp [ha])
    simp [ha, this]

theorem WF.backoff_node (h : WF A Ok f ord mo V u) {s : Nat} (hs : s < f.states.length) (hu : s ≠ u) :
    ∃ b, backoff f s = some b ∧ b < f.states.length ∧ ord s = ord b + 1 := by
  obtain ⟨st, hst, ok⟩ := h.exists_state hs
  obtain ⟨_, w, b, rest, ha, hb, ho⟩ := ok.node hu
  exact ⟨b, by simp [backoff, hst, ha], hb, ho⟩

theorem WF.of_backoff (h : WF A Ok f ord mo V u) {s b : Nat} (hb : backoff f s = some b) :
    s < f.states.length ∧ s ≠ u ∧ b < f.states.length ∧ ord s = ord b + 1 := by
  have hs : s < f.states.length := by
    unfold backoff at hb
    cases hst : f.states[s]? with
    | none => rw [hst] at hb; cases hb
    | some st => exact lt_of_getElem?_eq_some hst
  have hu : s ≠ u := by
    intro e; rw [e, h.backoff_u] at hb; cases hb
  obtain ⟨b', hb', h1, h2⟩ := h.backoff_node hs hu
  rw [hb] at hb'; cases hb'
  exact ⟨hs, hu, h1, h2⟩

theorem WF.backoff_none (h : WF A Ok f ord mo V u) {s : Nat} (hs : s < f.states.length)
    (hb : backoff f s = none) : s = u := by
  apply Classical.byContradiction
  intro hu
  obtain ⟨b, hb', _⟩ := h.backoff_node hs hu
  rw [hb] at hb'; cases hb'

theorem WF.getBackoff (h : WF A Ok f ord mo V u) {s : Nat} (hs : s < f.states.length) :
    getBackoffState f (s : Int) = pure (idOf (backoff f s)) := by
  obtain ⟨st, hst, ok⟩ := h.exists_state hs
  exact getBackoffState_eq hst (ok.arcs_ne_nil h.V_pos)

theorem WF.start_lt (h : WF A Ok f ord mo V u) : f.start < f.states.length := (h.of_backoff h.start).1

theorem WF.ord_start (h : WF A Ok f ord mo V u) : ord f.start = 1 := by
  rw [(h.of_backoff h.start).2.2.2, h.ord_u]

theorem WF.ord_lt (h : WF A Ok f ord mo V u) {s : Nat} (hs : s < f.states.length) :
    (ord s : Int) < mo := by
  obtain ⟨st, hst, ok⟩ := h.exists_state hs
  exact ok.ord_lt

theorem Below.ord_lt (h : WF A Ok f ord mo V u) {b s : Nat} (hb : Below f b s) :
    ord b < ord s ∧ b < f.states.length := by
  induction hb with
  | step e => have := h.of_backoff e; exact ⟨by omega, this.2.2.1⟩
  | trans e _ ih => have := h.of_backoff e; exact ⟨by omega, ih.2⟩

theorem Below.trans' {C : Type} {f : Fst C} {a b c : Nat} (h1 : Below f a b) (h2 : Below f b c) : Below f a c := by
  induction h2 with
  | step e => exact .trans e h1
  | trans e _ ih => exact .trans e (ih h1)

theorem Below.lt_len {C : Type} {f : Fst C} {b s : Nat} (hb : Below f b s) : s < f.states.length := by
  have key : ∀ b, backoff f s = some b → s < f.states.length := by
    intro b hb
    unfold backoff at hb
    cases hst : f.states[s]? with
    | none => rw [hst] at hb; cases hb
    | some st => exact lt_of_getElem?_eq_some hst
  cases hb with
  | step e => exact key _ e
  | trans e _ => exact key _ e

/-- backoff is a function, so the strict chain of `s` is `b` and the strict chain of `b` -/
theorem below_iff {C : Type} {f : Fst C} {s b x : Nat} (hb : backoff f s = some b) :
    Below f x s ↔ x = b ∨ Below f x b := by
  constructor
  · intro h
    cases h with
    | step e => rw [hb] at e; injection e with e; exact .inl e.symm
    | trans e h => rw [hb] at e; injection e with e; subst e; exact .inr h
  · rintro (rfl | h)
    · exact .step hb
    · exact .trans hb h

theorem not_below_of_none {C : Type} {f : Fst C} {s x : Nat} (hb : backoff f s = none) :
    ¬ Below f x s := by
  intro h
  cases h with
  | step e => rw [hb] at e; cases e
  | trans e _ => rw [hb] at e; cases e

theorem find?_label_eq {C : Type} {arcs : List (Arc C)} {y : Int} {a : Arc C}
    (h : arcs.find? (fun a => a.label == y) = some a) : a ∈ arcs ∧ a.label = y := by
  refine ⟨List.mem_of_find?_eq_some h, ?_⟩
  have := List.find?_some h
  simpa using this

end Basics

/-! ## The vectors of a state -/

section Vectors
variable {Ok : A.C → Prop} {beta : A.D}

/-- all three vectors have the same length -/
def Data.Sized (d : Data A.C) (k : Nat) : Prop :=
  d.origin.length = k ∧ d.dest.length = k ∧ d.costs.length = k

/-- the value of `UpdateIndexProb` when it succeeds -/
def blend (A : Arith) (beta : A.D) (den : A.C) (uni : Bool) (count lower : A.C) : A.C :=
  if uni then A.over count den else A.nls lower (A.over (A.nld count (A.cost beta)) den)

theorem updateIndexProb_eq (L : CountLaws A Ok beta) {c den lower : A.C} (hc : Ok c) (uni : Bool) :
    updateIndexProb A c (A.cost beta) den lower uni = some (blend A beta den uni c lower) := by
  unfold updateIndexProb blend
  cases uni <;> simp [L.above c hc]

theorem setEntry_eq (L : CountLaws A Ok beta) {c den : A.C} (hc : Ok c) (uni : Bool) (s next : Int)
    {d : Data A.C} {k i : Nat} (hd : d.Sized k) (hi : i < k) {lower : A.C} (hl : d.costs[i]? = some lower) :
    setEntry A beta den uni s next c i d = pure { d with
      origin := d.origin.set i s
      dest := d.dest.set i next
      costs := d.costs.set i (blend A beta den uni c lower) } := by
  unfold setEntry
  rw [if_pos ⟨by rw [hd.1]; exact hi, by rw [hd.2.1]; exact hi⟩, hl]
  simp only [updateIndexProb_eq L hc]

theorem find?_none_of_forall {C : Type} {arcs : List (Arc C)} {y : Int}
    (h : ∀ a ∈ arcs, a.label ≠ y) : arcs.find? (fun a => a.label == y) = none := by
  simp only [List.find?_eq_none, beq_iff_eq]
  exact h

theorem fillArcs_spec (L : CountLaws A Ok beta) (den : A.C) (uni : Bool) (s : Int) {k : Nat} :
    ∀ (arcs : List (Arc A.C)) (d : Data A.C), d.Sized k →
      (∀ a ∈ arcs, a.label ≠ 0 → Ok a.weight ∧ 1 ≤ a.label ∧ a.label < k) →
      (arcs.map Arc.label).Nodup →
      ∃ d', fillArcs A beta den uni s arcs d = pure d' ∧ d'.Sized k ∧ d'.norm = d.norm ∧
        (d'.origin[0]? = d.origin[0]? ∧ d'.dest[0]? = d.dest[0]? ∧ d'.costs[0]? = d.costs[0]?) ∧
        ∀ i : Nat, 1 ≤ i →
          (arcs.find? (fun a => a.label == (i : Int)) = none →
            d'.origin[i]? = d.origin[i]? ∧ d'.dest[i]? = d.dest[i]? ∧ d'.costs[i]? = d.costs[i]?) ∧
          (∀ a, arcs.find? (fun a => a.label == (i : Int)) = some a →
            d'.origin[i]? = some s ∧ d'.dest[i]? = some (a.next : Int) ∧
            d'.costs[i]? = (d.costs[i]?).map (blend A beta den uni a.weight)) := by
  intro arcs
  induction arcs with
  | nil =>
    intro d hd _ _
    exact ⟨d, rfl, hd, rfl, ⟨rfl, rfl, rfl⟩, fun i _ => ⟨fun _ => ⟨rfl, rfl, rfl⟩, by simp⟩⟩
  | cons a as ih =>
    intro d hd hok hnd
    have hnd' : (as.map Arc.label).Nodup := by
      simp only [List.map_cons, List.nodup_cons] at hnd; exact hnd.2
    have hnot : ∀ x ∈ as, x.label ≠ a.label := by
      simp only [List.map_cons, List.nodup_cons, List.mem_map, not_exists, not_and] at hnd
      exact hnd.1
    have hok' : ∀ x ∈ as, x.label ≠ 0 → Ok x.weight ∧ 1 ≤ x.label ∧ x.label < k :=
      fun x hx => hok x (List.mem_cons_of_mem _ hx)
    by_cases hl0 : a.label = 0
    · obtain ⟨d', h1, h2, h3, h4, h5⟩ := ih d hd hok' hnd'
      refine ⟨d', ?_, h2, h3, h4, ?_⟩
      · unfold fillArcs
        rw [if_neg (by omega)]
        exact h1
      · intro i hi
        have : (a.label == (i : Int)) = false := by rw [beq_eq_false_iff_ne]; omega
        simp only [List.find?_cons, this]
        exact h5 i hi
    · obtain ⟨hw, hl1, hlk⟩ := hok a (by simp) hl0
      have hik : a.label.toNat < k := by omega
      obtain ⟨lower, hlow⟩ : ∃ lower, d.costs[a.label.toNat]? = some lower :=
        exists_getElem?_of_lt (by rw [hd.2.2]; exact hik)
      have hset := setEntry_eq L hw (den := den) uni s (a.next : Int) hd hik hlow
      have hd1 : Data.Sized (A := A) { d with
          origin := d.origin.set a.label.toNat s
          dest := d.dest.set a.label.toNat (a.next : Int)
          costs := d.costs.set a.label.toNat (blend A beta den uni a.weight lower) } k := by
        simp [Data.Sized, hd.1, hd.2.1, hd.2.2]
      obtain ⟨d', h1, h2, h3, h4, h5⟩ := ih _ hd1 hok' hnd'
      have hne0 : a.label.toNat ≠ 0 := by omega
      refine ⟨d', ?_, h2, h3, ?_, ?_⟩
      · unfold fillArcs
        rw [if_pos (by omega), if_neg (by rw [hd.1]; omega), hset]
        exact h1
      · simpa [hne0] using h4
      · intro i hi
        by_cases hia : a.label = (i : Int)
        · have hit : a.label.toNat = i := by omega
          have hb : (a.label == (i : Int)) = true := by simp [hia]
          have hfn : as.find? (fun a => a.label == (i : Int)) = none :=
            find?_none_of_forall (fun x hx => by rw [← hia]; exact hnot x hx)
          have h6 := (h5 i hi).1 hfn
          simp only [List.find?_cons, hb]
          refine ⟨fun h => (by simp at h), fun a' ha' => ?_⟩
          injection ha' with ha'
          subst ha'
          rw [h6.1, h6.2.1, h6.2.2]
          simp only [hit]
          rw [hit] at hik hlow
          refine ⟨?_, ?_, ?_⟩
          · rw [List.getElem?_set_self (by rw [hd.1]; exact hik)]
          · rw [List.getElem?_set_self (by rw [hd.2.1]; exact hik)]
          · rw [List.getElem?_set_self (by rw [hd.2.2]; exact hik), hlow]; rfl
        · have hit : a.label.toNat ≠ i := by omega
          have hb : (a.label == (i : Int)) = false := by simp [hia]
          simp only [List.find?_cons, hb]
          have h6 := h5 i hi
          simp only [ne_eq, hit, not_false_eq_true, List.getElem?_set_ne] at h6
          exact h6

/-- costs before the final renormalisation, at a state without backoff or with backoff vectors `bd` -/
def rawInit (A : Arith) (alpha beta : A.D) (st : FState A.C) (bo : Option Nat) (bd : Data A.C) : List A.C :=
  match bo with
  | some _ => bd.costs.map fun c => A.times c (gammaOf A alpha beta (denominatorOf A alpha st) st)
  | none => List.replicate (st.arcs.length + 1) A.one

theorem idOf_lt {b : Option Nat} : idOf b < 0 ↔ b = none := by
  cases b with
  | none => simp [idOf]
  | some b => simp [idOf]

theorem idOf_ge {b : Option Nat} : idOf b ≥ 0 ↔ b.isSome = true := by
  cases b with
  | none => simp [idOf]
  | some b => simp [idOf]

theorem softmax_length {v w : List A.C} (h : Scores.softmaxRenormalize A v = .ok w) :
    w.length = v.length := by
  unfold Scores.softmaxRenormalize at h
  cases v with
  | nil => cases h
  | cons c cs => simp only [Except.ok.injEq] at h; rw [← h]; simp

theorem softmax_ok {v : List A.C} (h : v ≠ []) : ∃ w, Scores.softmaxRenormalize A v = .ok w := by
  unfold Scores.softmaxRenormalize
  cases v with
  | nil => exact absurd rfl h
  | cons c cs => exact ⟨_, rfl⟩

/-- What is stored for a state with observations. -/
structure Blended (A : Arith) (f : Fst A.C) (alpha beta : A.D) (s : Nat) (st : FState A.C) (bd d : Data A.C)
    (k : Nat) : Prop where
  sized : d.Sized k
  norm : d.norm = denominatorOf A alpha st
  origin : ∀ y : Nat, y < k → d.origin[y]? =
    if (count A f s y).isSome then some (s : Int) else (initData A alpha beta (denominatorOf A alpha st)
      (idOf (backoff f s)) st bd).origin[y]?
  dest : ∀ y : Nat, y < k → d.dest[y]? =
    if (count A f s y).isSome then (target f s y).map Int.ofNat else (initData A alpha beta
      (denominatorOf A alpha st) (idOf (backoff f s)) st bd).dest[y]?
  costs : ∃ raw, Scores.softmaxRenormalize A raw = .ok d.costs ∧ raw.length = k ∧
    ∀ y : Nat, y < k → raw[y]? =
      match count A f s y with
      | some c => ((rawInit A alpha beta st (backoff f s) bd)[y]?).map
          (blend A beta (denominatorOf A alpha st) (decide (idOf (backoff f s) < 0)) c)
      | none => (rawInit A alpha beta st (backoff f s) bd)[y]?

theorem initData_costs (alpha beta : A.D) (st : FState A.C) (bo : Option Nat) (bd : Data A.C) :
    (initData A alpha beta (denominatorOf A alpha st) (idOf bo) st bd).costs =
      rawInit A alpha beta st bo bd := by
  unfold initData rawInit
  cases bo with
  | none => rw [if_neg (by simp [idOf])]
  | some b => rw [if_pos (by simp [idOf])]

theorem updateStatesAndProbs_spec (L : CountLaws A Ok beta) {f : Fst A.C} {ord : Nat → Nat} {mo : Int}
    {V u s : Nat} (h : WF A Ok f ord mo V u) {st : FState A.C} (hst : f.states[s]? = some st)
    (alpha : A.D) {bd : Data A.C} (hbd : s ≠ u → bd.Sized (V + 1)) :
    ∃ d, updateStatesAndProbs A f beta (denominatorOf A alpha st) s (idOf (backoff f s)) st
        (initData A alpha beta (denominatorOf A alpha st) (idOf (backoff f s)) st bd) = pure d ∧
      Blended A f alpha beta s st bd d (V + 1) := by
  have ok := h.states s st hst
  have hslt := lt_of_getElem?_eq_some hst
  generalize hden : denominatorOf A alpha st = den
  generalize hbo : backoff f s = bo
  generalize hd0 : initData A alpha beta den (idOf bo) st bd = d0
  have hcosts0 : d0.costs = rawInit A alpha beta st bo bd := by
    rw [← hd0, ← hden]; exact initData_costs _ _ _ _ _
  have hsz0 : d0.Sized (V + 1) := by
    rw [← hd0]
    unfold initData
    by_cases hs : s = u
    · have hb : bo = none := by rw [← hbo, hs]; exact h.backoff_u
      rw [if_neg (by rw [hb]; simp [idOf])]
      have := (ok.unigram hs).2.1
      simp [Data.Sized, this]
    · obtain ⟨b, hb, _⟩ := h.backoff_node hslt hs
      rw [hbo] at hb
      rw [if_pos (by rw [hb]; simp [idOf])]
      have := hbd hs
      simp only [Data.Sized, List.length_map] at this ⊢
      exact this
  have hnorm0 : d0.norm = den := by
    rw [← hd0]; unfold initData; split <;> rfl
  -- the final weight
  have hfin : ∃ d1, finalEntry A f beta den s (idOf bo) st d0 = pure d1 ∧
      d1.Sized (V + 1) ∧ d1.norm = den ∧
      (∀ i : Nat, 1 ≤ i → d1.origin[i]? = d0.origin[i]? ∧ d1.dest[i]? = d0.dest[i]? ∧
        d1.costs[i]? = d0.costs[i]?) ∧
      (stateCount A st 0 = none → d1 = d0) ∧
      ∀ c, stateCount A st 0 = some c → d1.origin[0]? = some (s : Int) ∧
        d1.dest[0]? = some (f.start : Int) ∧
        d1.costs[0]? = (d0.costs[0]?).map (blend A beta den (decide (idOf bo < 0)) c) := by
    unfold finalEntry
    by_cases hi : A.isInf st.final = true
    · have hs : s ≠ u := by
        intro e
        have := L.finite _ (ok.unigram e).1
        rw [hi] at this; cases this
      obtain ⟨b, hb, _⟩ := h.backoff_node hslt hs
      rw [hbo] at hb
      rw [if_pos hi, if_neg (by rw [hb]; simp [idOf])]
      exact ⟨d0, rfl, hsz0, hnorm0, fun _ _ => ⟨rfl, rfl, rfl⟩, fun _ => rfl,
        fun c hc => by simp [stateCount, hi] at hc⟩
    · have hokf : Ok st.final := by
        by_cases hs : s = u
        · exact (ok.unigram hs).1
        · rcases (ok.node hs).1 with h' | h'
          · exact absurd h' hi
          · exact h'
      rw [if_neg hi]
      obtain ⟨lower, hlow⟩ : ∃ lower, d0.costs[0]? = some lower :=
        exists_getElem?_of_lt (by rw [hsz0.2.2]; omega)
      refine ⟨_, setEntry_eq L hokf _ _ _ hsz0 (by omega) hlow, ?_, hnorm0, ?_, ?_, ?_⟩
      · simp [Data.Sized, hsz0.1, hsz0.2.1, hsz0.2.2]
      · intro i h1
        have : (0 : Nat) ≠ i := by omega
        simp [this]
      · intro hc; simp [stateCount, hi] at hc
      · intro c hc
        simp only [stateCount, hi, if_true, Bool.false_eq_true, if_false, Option.some.injEq] at hc
        subst hc
        refine ⟨?_, ?_, ?_⟩
        · simp only; rw [List.getElem?_set_self (by rw [hsz0.1]; omega)]
        · simp only; rw [List.getElem?_set_self (by rw [hsz0.2.1]; omega)]
        · simp only; rw [List.getElem?_set_self (by rw [hsz0.2.2]; omega), hlow]; rfl
  obtain ⟨d1, e1, hsz1, hn1, hpos1, hnone1, hsome1⟩ := hfin
  obtain ⟨d2, e2, hsz2, hn2, hz2, hspec2⟩ := fillArcs_spec L den (decide (idOf bo < 0)) (s : Int) st.arcs d1
    hsz1 (fun a ha hl => by
      have := ok.arcs a ha hl
      exact ⟨this.1, this.2.2.2.1, by have := this.2.2.2.2; omega⟩) ok.nodup
  obtain ⟨w, hw⟩ := softmax_ok (A := A) (v := d2.costs) (by
    intro e; have := hsz2.2.2; rw [e] at this; simp at this)
  refine ⟨{ d2 with costs := w }, ?_, ?_⟩
  · unfold updateStatesAndProbs
    rw [e1]
    simp only [Res.pure_bind]
    rw [e2]
    simp only [Res.pure_bind]
    rw [hw]
  · have hcount : ∀ y : Int, count A f s y = stateCount A st y := by
      intro y; simp [count, hst]
    have hc0 : count A f s ((0 : Nat) : Int) = stateCount A st 0 := hcount 0
    have hcy : ∀ y : Nat, 1 ≤ y → count A f s y =
        (st.arcs.find? (fun a => a.label == (y : Int))).map Arc.weight := by
      intro y hy; rw [hcount]; simp only [stateCount]; rw [if_neg (by omega)]
    have hty : ∀ y : Nat, 1 ≤ y → target f s y =
        (st.arcs.find? (fun a => a.label == (y : Int))).map Arc.next := by
      intro y hy; simp only [target]; rw [if_neg (by omega), hst]; rfl
    constructor
    · exact ⟨hsz2.1, hsz2.2.1, by rw [softmax_length hw]; exact hsz2.2.2⟩
    · rw [hden]; simp only; rw [hn2, hn1]
    · intro y hy
      rw [hden, hbo, hd0]
      simp only
      by_cases h0 : y = 0
      · subst h0
        rw [hz2.1, hc0]
        cases hc : stateCount A st 0 with
        | none => rw [hnone1 hc]; simp
        | some c => rw [(hsome1 c hc).1]; simp
      · have h1 : 1 ≤ y := by omega
        rw [hcy y h1]
        cases hf : st.arcs.find? (fun a => a.label == (y : Int)) with
        | none => rw [((hspec2 y h1).1 hf).1, (hpos1 y h1).1]; simp
        | some a => rw [((hspec2 y h1).2 a hf).1]; simp
    · intro y hy
      rw [hden, hbo, hd0]
      simp only
      by_cases h0 : y = 0
      · subst h0
        rw [hz2.2.1, hc0]
        cases hc : stateCount A st 0 with
        | none => rw [hnone1 hc]; simp
        | some c => rw [(hsome1 c hc).2.1]; simp [target]
      · have h1 : 1 ≤ y := by omega
        rw [hcy y h1, hty y h1]
        cases hf : st.arcs.find? (fun a => a.label == (y : Int)) with
        | none => rw [((hspec2 y h1).1 hf).2.1, (hpos1 y h1).2.1]; simp
        | some a => rw [((hspec2 y h1).2 a hf).2.1]; simp
    · refine ⟨d2.costs, hw, hsz2.2.2, ?_⟩
      intro y hy
      rw [hden, hbo, ← hcosts0]
      by_cases h0 : y = 0
      · subst h0
        rw [hz2.2.2, hc0]
        cases hc : stateCount A st 0 with
        | none => rw [hnone1 hc]
        | some c => rw [(hsome1 c hc).2.2]
      · have h1 : 1 ≤ y := by omega
        rw [hcy y h1]
        cases hf : st.arcs.find? (fun a => a.label == (y : Int)) with
        | none => rw [((hspec2 y h1).1 hf).2.2, (hpos1 y h1).2.2]; rfl
        | some a => rw [((hspec2 y h1).2 a hf).2.2, (hpos1 y h1).2.2]; rfl

/-- no symbol was observed at a state -/
def Unseen (A : Arith) (f : Fst A.C) (s : Nat) : Prop := ∀ y : Int, count A f s y = none

theorem stateData_spec (L : CountLaws A Ok beta) {f : Fst A.C} {ord : Nat → Nat} {mo : Int}
    {V u s : Nat} (h : WF A Ok f ord mo V u) {st : FState A.C} (hst : f.states[s]? = some st)
    (alpha : A.D) {bd : Data A.C} (hbd : s ≠ u → bd.Sized (V + 1)) :
    ∃ d, stateData A f alpha beta s (idOf (backoff f s)) bd = pure d ∧ d.Sized (V + 1) ∧
      ((s ≠ u ∧ Unseen A f s ∧ d = bd) ∨
        (Blended A f alpha beta s st bd d (V + 1) ∧ ∃ y : Nat, y ≤ V ∧ (count A f s y).isSome)) := by
  have ok := h.states s st hst
  have hne := ok.arcs_ne_nil h.V_pos
  cases harcs : st.arcs with
  | nil => exact absurd harcs hne
  | cons a as =>
    have hno := noObservations_eq (A := A) hst harcs
    unfold stateData
    rw [hno]
    simp only [Res.pure_bind]
    by_cases hn : (A.isInf st.final && (as.length == 0) && (a.label == 0)) = true
    · rw [if_pos hn]
      simp only [Bool.and_eq_true, beq_iff_eq] at hn
      have hs : s ≠ u := by
        intro e; exact (ok.unigram e).2.2.1 a (by simp [harcs]) hn.2
      refine ⟨bd, rfl, hbd hs, .inl ⟨hs, ?_, rfl⟩⟩
      intro y
      simp only [count, hst, Option.bind_some, stateCount]
      by_cases hy : y = 0
      · rw [if_pos hy, if_pos hn.1.1]
      · rw [if_neg hy, harcs, List.length_eq_zero_iff.mp hn.1.2]
        have : (a.label == y) = false := by rw [beq_eq_false_iff_ne]; omega
        simp [this]
    · rw [if_neg hn, state?_nat, hst]
      simp only
      obtain ⟨d, hd, hb⟩ := updateStatesAndProbs_spec L h hst alpha hbd
      refine ⟨d, hd, hb.sized, .inr ⟨hb, ?_⟩⟩
      by_cases hi : A.isInf st.final = true
      · by_cases hl : a.label = 0
        · simp only [hi, Bool.true_and, hl, beq_self_eq_true, Bool.and_true, beq_iff_eq] at hn
          cases has : as with
          | nil => rw [has] at hn; simp at hn
          | cons a' as' =>
            have hmem : a' ∈ st.arcs := by simp [harcs, has]
            have hl' : a'.label ≠ 0 := by
              have := ok.nodup
              rw [harcs, has] at this
              simp only [List.map_cons, List.nodup_cons, List.mem_cons, not_or] at this
              intro e; exact this.1.1 (by rw [hl, e])
            have hr := ok.arcs a' hmem hl'
            refine ⟨a'.label.toNat, by omega, ?_⟩
            simp only [count, hst, Option.bind_some, stateCount]
            rw [if_neg (by omega)]
            simp only [Option.isSome_map, List.find?_isSome]
            exact ⟨a', hmem, by simp; omega⟩
        · have hmem : a ∈ st.arcs := by simp [harcs]
          have hr := ok.arcs a hmem hl
          refine ⟨a.label.toNat, by omega, ?_⟩
          simp only [count, hst, Option.bind_some, stateCount]
          rw [if_neg (by omega)]
          simp only [Option.isSome_map, List.find?_isSome]
          exact ⟨a, hmem, by simp; omega⟩
      · exact ⟨0, by omega, by simp [count, hst, stateCount, hi]⟩

/-- The vectors of a state computed afresh from the counts. -/
inductive Ideal (A : Arith) (f : Fst A.C) (alpha beta : A.D) : Nat → Data A.C → Prop
  | unigram {s d} : backoff f s = none →
      stateData A f alpha beta s (-1) (Data.empty A) = pure d → Ideal A f alpha beta s d
  | node {s b bd d} : backoff f s = some b → Ideal A f alpha beta b bd →
      stateData A f alpha beta s b bd = pure d → Ideal A f alpha beta s d

theorem Ideal.unique {f : Fst A.C} {alpha beta : A.D} {s : Nat} {d d' : Data A.C}
    (h : Ideal A f alpha beta s d) (h' : Ideal A f alpha beta s d') : d = d' := by
  induction h generalizing d' with
  | unigram hb hd =>
    cases h' with
    | unigram _ hd' => rw [hd] at hd'; exact Res.pure_inj hd'
    | node hb' _ _ => rw [hb] at hb'; cases hb'
  | node hb _ hd ih =>
    cases h' with
    | unigram hb' _ => rw [hb] at hb'; cases hb'
    | node hb' hi' hd' =>
      rw [hb] at hb'; injection hb' with e; subst e
      have := ih hi'; subst this
      rw [hd] at hd'; exact Res.pure_inj hd'

/-- Every state of a well-formed automaton has its vectors. -/
theorem WF.ideal (L : CountLaws A Ok beta) {f : Fst A.C} {ord : Nat → Nat} {mo : Int}
    {V u : Nat} (h : WF A Ok f ord mo V u) (alpha : A.D) :
    ∀ s, s < f.states.length → ∃ d, Ideal A f alpha beta s d ∧ d.Sized (V + 1) := by
  have key : ∀ k s, ord s = k → s < f.states.length → ∃ d, Ideal A f alpha beta s d ∧ d.Sized (V + 1) := by
    intro k
    induction k with
    | zero =>
      intro s hk hs
      have hu : s = u := by
        apply Classical.byContradiction
        intro hu
        obtain ⟨b, _, _, ho⟩ := h.backoff_node hs hu
        omega
      obtain ⟨st, hst, _⟩ := h.exists_state hs
      obtain ⟨d, hd, hsz, _⟩ := stateData_spec L h hst alpha (bd := Data.empty A) (fun e => absurd hu e)
      have hb : backoff f s = none := by rw [hu]; exact h.backoff_u
      rw [hb] at hd
      exact ⟨d, .unigram hb hd, hsz⟩
    | succ k ih =>
      intro s hk hs
      have hu : s ≠ u := by intro e; rw [e, h.ord_u] at hk; cases hk
      obtain ⟨b, hb, hbl, ho⟩ := h.backoff_node hs hu
      obtain ⟨bd, hbd, hbsz⟩ := ih b (by omega) hbl
      obtain ⟨st, hst, _⟩ := h.exists_state hs
      obtain ⟨d, hd, hsz, _⟩ := stateData_spec L h hst alpha (fun _ => hbsz)
      rw [hb] at hd
      exact ⟨d, .node hb hbd hd, hsz⟩
  exact fun s hs => key _ s rfl hs

theorem stateData_congr {f f' : Fst A.C} {alpha beta : A.D} {s : Nat} {bo : Int} {bd : Data A.C}
    (h1 : f'.states[s]? = f.states[s]?) (h2 : f'.start = f.start) :
    stateData A f' alpha beta s bo bd = stateData A f alpha beta s bo bd := by
  unfold stateData noObservations updateStatesAndProbs finalEntry
  simp only [state?_nat, h1, h2]

theorem backoff_congr {C : Type} {f f' : Fst C} {s : Nat} (h1 : f'.states[s]? = f.states[s]?) :
    backoff f' s = backoff f s := by
  unfold backoff; rw [h1]

/-- The vectors depend only on the states of the chain. -/
theorem Ideal.congr {f f' : Fst A.C} {alpha beta : A.D} {s : Nat} {d : Data A.C}
    (h : Ideal A f alpha beta s d) (h2 : f'.start = f.start)
    (h1 : ∀ x, x = s ∨ Below f x s → f'.states[x]? = f.states[x]?) : Ideal A f' alpha beta s d := by
  induction h with
  | unigram hb hd =>
    have := h1 _ (.inl rfl)
    exact .unigram (by rw [backoff_congr this]; exact hb) (by rw [stateData_congr this h2]; exact hd)
  | node hb _ hd ih =>
    have := h1 _ (.inl rfl)
    refine .node (by rw [backoff_congr this]; exact hb) (ih ?_) (by rw [stateData_congr this h2]; exact hd)
    rintro x (rfl | hx)
    · exact h1 _ (.inr (.step hb))
    · exact h1 _ (.inr (.trans hb hx))

end Vectors
end Mozolm.Ppm
