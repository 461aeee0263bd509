import Verif.Ppm.Twin
import Verif.Ppm.Diff
import Verif.Ppm.Totals
import Verif.Ppm.NearSpec

/-! # The PPM model with rounding -/

namespace Mozolm.Ppm
open XR Real
open scoped BigOperators

variable {φ : Prop} {ε δ : ℝ}

/-- Costs of possible counts with rounding: at most `ε` (a count is at least one); or a flag was raised. -/
def OkF (ε : ℝ) (c : XR) : Prop := c = .nan ∨ ∃ x, c = .fin x ∧ x ≤ ε

/-- a count with rounding and the count -/
def CountTwin (φ : Prop) (ε : ℝ) (c c' : XR) : Prop := OkF ε c ∧ ∃ r : ℝ, 1 ≤ r ∧ c' = costOf r ∧ CostNear φ (r * ε) c r

theorem okF_nls (F : Rounding φ ε δ) (c : XR) (h : OkF ε c) : OkF ε (F.nls c (.fin 0)) := by
  rcases h with rfl | ⟨x, rfl, hx⟩
  · exact .inl (nls_nan_left F _)
  · have hn := F.nls_near (.fin x) (.fin 0)
    have : negLogSum (.fin x) (.fin 0) = .fin (-log (exp (-x) + exp (-0))) := rfl
    rw [this] at hn
    have hl : 0 ≤ log (exp (-x) + exp (-0)) := Real.log_nonneg (by simp [(exp_pos _).le])
    cases hz : F.nls (.fin x) (.fin 0) with
    | nan => exact .inl rfl
    | fin z =>
      rw [hz] at hn
      have hn' : |z - -log (exp (-x) + exp (-0))| ≤ ε := hn
      rw [abs_le] at hn'
      exact .inr ⟨z, rfl, by linarith [hn'.2]⟩
    | pinf => rw [hz] at hn; exact absurd hn id
    | ninf => rw [hz] at hn; exact absurd hn id

theorem costNear_one {e : ℝ} (he : 0 ≤ e) : CostNear φ e (.fin 0) 1 := .inr (.inr ⟨one_pos, 0, rfl, by simpa using he⟩)

theorem cost_fin (F : Rounding φ ε δ) {b : ℝ} (hb : 0 < b) : CostNear φ ε (F.cost (.fin b)) b := by
  have := CostNear.of (e := 0) (p := b) (F.cost_near (.fin b)) (by
    rw [negLog_fin hb.le]
    exact .inr (.inr ⟨hb, -log b, costOf_pos hb, by simp⟩))
  rwa [zero_add] at this

/-- what is needed of `beta`: it is below one by more than the errors -/
theorem lawsF (F : Rounding φ ε δ) (hε : 0 ≤ ε) {b : ℝ} (hb : 0 < b) (h : b * exp (2 * ε) < 1) : CountLaws F.arith (OkF ε) (.fin b) := by
  refine ⟨.inr ⟨0, rfl, hε⟩, fun c hc => okF_nls F c hc, ?_, ?_, by simp⟩
  · rintro c (rfl | ⟨x, rfl, _⟩) <;> simp
  · intro c hc
    simp only [decide_eq_false_iff_not]
    intro hle
    have hcost := cost_fin F hb
    rcases hc with rfl | ⟨x, rfl, hx⟩
    · cases hz : F.cost (.fin b) <;> (rw [hz] at hle; exact hle)
    · rcases hcost with ⟨_, hz⟩ | ⟨h0, _⟩ | ⟨_, y, hz, hy⟩
      · rw [hz] at hle; exact hle
      · exact hb.ne' h0
      · rw [hz] at hle
        have hle' : y ≤ x := hle
        rw [abs_le] at hy
        have h1 : log (b * exp (2 * ε)) < 0 := Real.log_neg (by positivity) h
        rw [Real.log_mul hb.ne' (exp_pos _).ne', Real.log_exp] at h1
        linarith [hy.1]

theorem countTwin_one (hε : 0 ≤ ε) : CountTwin φ ε (.fin 0) (.fin 0) :=
  ⟨.inr ⟨0, rfl, hε⟩, 1, le_refl _, costOf_one.symm, costNear_one (by linarith)⟩

theorem countTwin_succ (F : Rounding φ ε δ) (hε : 0 ≤ ε) {c c' : XR} (h : CountTwin φ ε c c') :
    CountTwin φ ε (F.nls c (.fin 0)) (negLogSum c' (.fin 0)) := by
  obtain ⟨h1, r, h2, rfl, h3⟩ := h
  refine ⟨okF_nls F c h1, r + 1, by linarith, nls_one (by linarith), ?_⟩
  have := CostNear.nls F h3 (costNear_one (φ := φ) (e := r * ε) (by positivity))
  convert this using 1; ring

/-- Counts with rounding and counts. -/
noncomputable def twin (F : Rounding φ ε δ) (hε : 0 ≤ ε) {b : ℝ} (hb : 0 < b) (h : b * exp (2 * ε) < 1) : Twin F.arith Arith.xr (.fin b) (.fin b) where
  W := CountTwin φ ε
  T := CountTwin φ ε
  one := countTwin_one hε
  succ _ _ h := countTwin_succ F hε h
  first := by
    refine ⟨?_, 1, le_refl _, by rw [costOf_one]; rfl, ?_⟩
    all_goals
      have hn := F.nls_near .pinf (.fin 0)
      have : negLogSum .pinf (.fin 0) = .fin 0 := rfl
      rw [this] at hn
    · cases hz : F.nls .pinf (.fin 0) with
      | nan => exact .inl hz
      | fin z =>
        rw [hz] at hn
        have hn' : |z - 0| ≤ ε := hn
        rw [abs_le] at hn'
        exact .inr ⟨z, hz, by linarith [hn'.2]⟩
      | pinf => rw [hz] at hn; exact absurd hn id
      | ninf => rw [hz] at hn; exact absurd hn id
    · have := CostNear.of hn (costNear_one (φ := φ) (e := 0) le_rfl)
      rw [zero_add] at this
      rw [one_mul]; exact this
  tone := countTwin_one hε
  tsucc _ _ h := countTwin_succ F hε h
  finite c c' hc := by
    obtain ⟨h1, r, h2, rfl, _⟩ := hc
    exact ⟨(lawsF F hε hb h).finite c h1, by simp only [decide_eq_false_iff_not]; rw [costOf_eq_pinf]; linarith⟩
  zero := by simp
  above c c' hc := by
    obtain ⟨h1, r, h2, rfl, _⟩ := hc
    refine ⟨(lawsF F hε hb h).above c h1, (laws hb ?_).above _ (okR_costOf h2)⟩
    have : (1 : ℝ) ≤ exp (2 * ε) := Real.one_le_exp (by linarith)
    nlinarith

/-! ## Corresponding automata -/

section
variable {A B : Arith} {beta : A.D} {beta' : B.D} {R : Twin A B beta beta'}

theorem FstTwin.at {g : Fst A.C} {f : Fst B.C} (h : FstTwin R g f) (s : Nat) : OptTwin (StateTwin R) g.states[s]? f.states[s]? :=
  Pointwise.opt h.states s

theorem FstTwin.at' {g : Fst A.C} {f : Fst B.C} (h : FstTwin R g f) {s : Nat} {st : FState A.C} (hs : g.states[s]? = some st) :
    ∃ st', f.states[s]? = some st' ∧ StateTwin R st st' := by
  have := h.at s
  rw [hs] at this
  generalize f.states[s]? = x at this ⊢
  cases this with
  | some h => exact ⟨_, rfl, h⟩

theorem FstTwin.back {g : Fst A.C} {f : Fst B.C} (h : FstTwin R g f) (s : Nat) : Ppm.backoff f s = Ppm.backoff g s := by
  unfold Ppm.backoff
  have := h.at s
  generalize g.states[s]? = x at this ⊢
  generalize f.states[s]? = y at this ⊢
  cases this with
  | none => rfl
  | @some st st' hs =>
    have ha := hs.arcs
    obtain ⟨fi, as⟩ := st
    obtain ⟨fi', as'⟩ := st'
    simp only at ha ⊢
    cases ha with
    | nil => rfl
    | cons h1 _ => simp only [h1.label, h1.next]

theorem find_twin {as : List (Arc A.C)} {as' : List (Arc B.C)} (h : Pointwise (ArcTwin R) as as') (y : Int) :
    OptTwin (ArcTwin R) (as.find? fun a => a.label == y) (as'.find? fun a => a.label == y) := by
  induction h with
  | nil => exact .none
  | cons h1 _ ih =>
    rw [List.find?_cons, List.find?_cons, h1.label]
    split
    · exact .some h1
    · exact ih

theorem StateTwin.count {st : FState A.C} {st' : FState B.C} (h : StateTwin R st st') (y : Int) :
    OptTwin R.W (stateCount A st y) (stateCount B st' y) := by
  unfold stateCount
  by_cases hy : y = 0
  · rw [if_pos hy, if_pos hy, h.isInf]
    rcases h.final with h | ⟨h1, h2⟩
    · rw [(R.finite _ _ h).1]
      exact .some h
    · rw [h1, R.zero.1]
      exact .none
  · rw [if_neg hy, if_neg hy]
    have := find_twin h.arcs y
    generalize hx : st.arcs.find? (fun a => a.label == y) = x at this ⊢
    generalize st'.arcs.find? (fun a => a.label == y) = x' at this ⊢
    cases this with
    | none => exact .none
    | some h =>
      refine .some (h.count ?_)
      have := List.find?_some hx
      simp only [beq_iff_eq] at this
      rw [this]; exact hy

theorem FstTwin.count {g : Fst A.C} {f : Fst B.C} (h : FstTwin R g f) (s : Nat) (y : Int) :
    OptTwin R.W (Ppm.count A g s y) (Ppm.count B f s y) := by
  unfold Ppm.count
  have := h.at s
  generalize g.states[s]? = x at this ⊢
  generalize f.states[s]? = x' at this ⊢
  cases this with
  | none => exact .none
  | some hs => exact hs.count y

theorem FstTwin.seen {g : Fst A.C} {f : Fst B.C} (h : FstTwin R g f) (s : Nat) (y : Int) :
    (Ppm.count B f s y).isSome = (Ppm.count A g s y).isSome := by
  have := h.count s y
  generalize Ppm.count A g s y = x at this ⊢
  generalize Ppm.count B f s y = x' at this ⊢
  cases this <;> rfl

theorem FstTwin.unseen {g : Fst A.C} {f : Fst B.C} (h : FstTwin R g f) {s : Nat} (hu : Unseen A g s) : Unseen B f s := by
  intro y
  have := h.seen s y
  rw [hu y] at this
  simpa using this

theorem twin_labels {as : List (Arc A.C)} {as' : List (Arc B.C)} (h : Pointwise (ArcTwin R) as as') :
    as.map Arc.label = as'.map Arc.label := by
  induction h with
  | nil => rfl
  | cons h1 _ ih => rw [List.map_cons, List.map_cons, h1.label, ih]

theorem twin_mem {as : List (Arc A.C)} {as' : List (Arc B.C)} (h : Pointwise (ArcTwin R) as as') :
    ∀ a ∈ as, ∃ a' ∈ as', ArcTwin R a a' := by
  induction h with
  | nil => intro a ha; simp at ha
  | cons h1 _ ih =>
    intro a ha
    rcases List.mem_cons.1 ha with rfl | ha
    · exact ⟨_, List.mem_cons_self, h1⟩
    · obtain ⟨a', h2, h3⟩ := ih a ha
      exact ⟨a', List.mem_cons_of_mem _ h2, h3⟩

theorem twin_mem' {as : List (Arc A.C)} {as' : List (Arc B.C)} (h : Pointwise (ArcTwin R) as as') :
    ∀ a ∈ as', ∃ a' ∈ as, ArcTwin R a' a := by
  induction h with
  | nil => intro a ha; simp at ha
  | cons h1 _ ih =>
    intro a ha
    rcases List.mem_cons.1 ha with rfl | ha
    · exact ⟨_, List.mem_cons_self, h1⟩
    · obtain ⟨a', h2, h3⟩ := ih a ha
      exact ⟨a', List.mem_cons_of_mem _ h2, h3⟩

/-- An automaton that corresponds to a well-formed one is well-formed. -/
theorem FstTwin.wf {Ok : A.C → Prop} {Ok' : B.C → Prop} (hok : ∀ c c', R.W c c' → Ok c) (hfin : ∀ c, Ok' c → B.isInf c = false) {g : Fst A.C} {f : Fst B.C} (h : FstTwin R g f)
    {ord : Nat → Nat} {mo : Int} {V u : Nat} (w : WF B Ok' f ord mo V u) : WF A Ok g ord mo V u := by
  refine ⟨fun s st hst => ?_, by rw [← h.length]; exact w.u_lt, w.ord_u, by rw [← h.back, ← h.start]; exact w.start, w.V_pos⟩
  obtain ⟨st', hst', ht⟩ := h.at' hst
  have k := w.states s st' hst'
  refine ⟨fun a ha h0 => ?_, by rw [twin_labels ht.arcs]; exact k.nodup, k.ord_lt, fun hu => ?_, fun hu => ?_⟩
  · obtain ⟨a', ha', ht'⟩ := twin_mem ht.arcs a ha
    have := k.arcs a' ha' (by rw [ht'.label]; exact h0)
    rw [ht'.next, ht'.label, h.length] at this
    exact ⟨hok _ _ (ht'.count h0), this.2⟩
  · obtain ⟨k1, k2, k3, k4⟩ := k.unigram hu
    refine ⟨?_, by rw [← k2]; exact ht.arcs.length_eq, fun a ha => ?_, fun y h1 h2 => ?_⟩
    · rcases ht.final with h | ⟨_, h2⟩
      · exact hok _ _ h
      · have := hfin _ k1
        rw [h2, R.zero.2] at this
        exact absurd this (by simp)
    · obtain ⟨a', ha', ht'⟩ := twin_mem ht.arcs a ha
      rw [← ht'.label]; exact k3 a' ha'
    · obtain ⟨a', ha', e⟩ := k4 y h1 h2
      obtain ⟨a, ha, ht'⟩ := twin_mem' ht.arcs a' ha'
      exact ⟨a, ha, by rw [← ht'.label]; exact e⟩
  · obtain ⟨k1, w0, b, rest, k2, k3, k4⟩ := k.node hu
    refine ⟨?_, ?_⟩
    · rcases ht.final with h | ⟨h1, _⟩
      · exact .inr (hok _ _ h)
      · exact .inl (by rw [h1]; exact R.zero.1)
    · have ha := ht.arcs
      rw [k2] at ha
      obtain ⟨fi, as⟩ := st
      simp only at ha ⊢
      cases ha with
      | @cons a _ _ _ h1 _ =>
        obtain ⟨la, wa, na⟩ := a
        have e1 : 0 = la := h1.label
        have e2 : b = na := h1.next
        subst e1 e2
        exact ⟨_, _, _, rfl, by rw [← h.length]; exact k3, k4⟩

end

/-! ## Probabilities -/

section Numbers
variable {F : Rounding φ ε δ} {hε : 0 ≤ ε} {alpha beta T K : ℝ} {hb : 0 < beta} {hb1 : beta * exp (2 * ε) < 1}
variable {f g : Fst XR} {ord : Nat → Nat} {mo : Int} {V u : Nat}

theorem CountTwin.near {c c' : XR} (h : CountTwin φ ε c c') : 1 ≤ value c' ∧ CostNear φ (value c' * ε) c (value c') := by
  obtain ⟨_, r, h1, rfl, h2⟩ := h
  rw [value_costOf (by linarith)]
  exact ⟨h1, h2⟩

theorem count_some (hg : FstTwin (twin F hε hb hb1) g f) {s y : Nat} {c : XR} (hc : count F.arith g s y = some c) :
    1 ≤ cnt f s y ∧ CostNear φ (cnt f s y * ε) c (cnt f s y) := by
  have := hg.count s y
  rw [hc] at this
  rw [cnt_eq]
  generalize count Arith.xr f s y = x at this ⊢
  cases this with
  | some h => exact CountTwin.near h

theorem count_none (hg : FstTwin (twin F hε hb hb1) g f) {s y : Nat} (hc : count F.arith g s y = none) : cnt f s y = 0 := by
  have := hg.count s y
  rw [hc] at this
  rw [cnt_eq]
  generalize count Arith.xr f s y = x at this ⊢
  cases this with
  | none => rfl

theorem cnt_le_total (wf : WF Arith.xr OkR f ord mo V u) {s y : Nat} (hy : y < V + 1) : cnt f s y ≤ total f V s :=
  Finset.single_le_sum (f := fun y => cnt f s y) (fun y _ => wf.cnt_nonneg s y) (Finset.mem_range.2 hy)

/-- the total on the backoff arc -/
theorem stored_near (hg : FstTwin (twin F hε hb hb1) g f) (wf : WF Arith.xr OkR f ord mo V u) (ht : Totals f V) {s b : Nat}
    {st : FState XR} (hst : g.states[s]? = some st) (hbo : backoff f s = some b) (hpos : 0 < total f V s) :
    1 ≤ total f V s ∧ CostNear φ (total f V s * ε) (totalFrom F.arith st.final st.arcs) (total f V s) := by
  obtain ⟨st', hst', htw⟩ := hg.at' hst
  have hu := (wf.of_backoff hbo).2.1
  obtain ⟨_, w, b', rest, h, _⟩ := (wf.states s st' hst').node hu
  have hw := (ht s b hbo).2 hpos
  unfold storedTotal at hw
  rw [hst'] at hw
  simp only [Option.bind_some, h, if_true, Option.some.injEq] at hw
  have ha := htw.arcs
  rw [h] at ha
  obtain ⟨fi, as⟩ := st
  simp only at ha ⊢
  cases ha with
  | @cons a _ _ _ h1 _ =>
    have hl : a.label = 0 := h1.label.symm
    have h2 : CountTwin φ ε a.weight w := h1.total hl
    rw [hw] at h2
    have h3 := h2.near
    rw [value_costOf hpos.le] at h3
    simp only [totalFrom]
    rw [if_pos hl]
    exact h3

theorem den_near (ha : 0 < alpha) (hg : FstTwin (twin F hε hb hb1) g f) (wf : WF Arith.xr OkR f ord mo V u) (ht : Totals f V)
    {s b : Nat} {st : FState XR} (hst : g.states[s]? = some st) (hbo : backoff f s = some b) (hpos : 0 < total f V s) :
    CostNear φ (total f V s * ε + ε) (denominatorOf F.arith (.fin alpha) st) (total f V s + alpha) := by
  obtain ⟨h1, h2⟩ := stored_near hg wf ht hst hbo hpos
  exact CostNear.nls F h2 ((cost_fin F ha).mono (by nlinarith))

theorem gamma_near (hδ0 : 0 ≤ δ) (hδ1 : δ < 1) (ha : 0 < alpha) (hg : FstTwin (twin F hε hb hb1) g f) (wf : WF Arith.xr OkR f ord mo V u)
    (ht : Totals f V) {s b : Nat} {st : FState XR} (hst : g.states[s]? = some st) (hbo : backoff f s = some b) (hpos : 0 < total f V s) :
    CostNear φ (slack δ + total f V s * ε + 6 * ε) (gammaOf F.arith (.fin alpha) (.fin beta) (denominatorOf F.arith (.fin alpha) st) st)
      ((distinct f V s * beta + alpha) / (total f V s + alpha)) := by
  obtain ⟨st', hst', htw⟩ := hg.at' hst
  have hu := (wf.of_backoff hbo).2.1
  have hn := wf.distinct_node hst' hu
  have hlen : st'.arcs.length = st.arcs.length := htw.arcs.length_eq.symm
  rw [htw.isInf, hlen] at hn
  set n : Int := (if F.arith.isInf st.final then (st.arcs.length : Int) - 1 else st.arcs.length : Int) with hnd
  have hn' : (n : ℝ) = (distinct f V s : ℝ) := by rw [← hn]
  have hn0 : 0 ≤ n := by
    have : (0 : ℝ) ≤ (n : ℝ) := by rw [hn']; positivity
    exact_mod_cast this
  have hsl := slack_nonneg hδ0 hδ1
  have h1 := ValueNear.ofInt F hδ1 hn0
  have h2 := ValueNear.cost F (by exact_mod_cast hn0) h1
  have h3 := CostNear.times F h2 (cost_fin F hb)
  have h4 := CostNear.nls F h3 ((cost_fin F ha).mono (f := slack δ + ε + ε + ε) (by linarith))
  have h5 := CostNear.over F h4 (den_near ha hg wf ht hst hbo hpos) (by positivity)
  rw [hn'] at h5
  exact h5.mono (by linarith)

theorem totalFrom_near {as : List (Arc XR)} {as' : List (Arc XR)} (h : Pointwise (ArcTwin (twin F hε hb hb1)) as as') :
    ∀ {e p : ℝ} {acc : XR}, (∀ a ∈ as', a.label ≠ 0 ∧ value a.weight * ε ≤ e) → CostNear φ e acc p →
    CostNear φ (e + as'.length * ε) (totalFrom F.arith acc as) (p + (as'.map fun a => value a.weight).sum) := by
  induction h with
  | nil => intro e p acc _ ha; simpa [totalFrom] using ha
  | @cons a a' as as' h1 _ ih =>
    intro e p acc hl ha
    obtain ⟨h0, h2⟩ := hl a' (by simp)
    have hl0 : a.label ≠ 0 := by rw [← h1.label]; exact h0
    have hw : CountTwin φ ε a.weight a'.weight := h1.count hl0
    have := ih (e := e + ε) (p := p + value a'.weight) (acc := F.nls acc a.weight)
      (fun b hb => ⟨(hl b (by simp [hb])).1, by linarith [(hl b (by simp [hb])).2]⟩) (CostNear.nls F ha (hw.near.2.mono h2))
    simp only [totalFrom]
    rw [if_neg hl0]
    simp only [List.map_cons, List.sum_cons, List.length_cons, Nat.cast_succ]
    refine (show CostNear φ _ _ _ from ?_)
    convert this using 1 <;> ring

theorem den_u_near (ha : 0 < alpha) (hg : FstTwin (twin F hε hb hb1) g f) (wf : WF Arith.xr OkR f ord mo V u)
    {st : FState XR} (hst : g.states[u]? = some st) :
    CostNear φ ((total f V u + V + 1) * ε) (denominatorOf F.arith (.fin alpha) st) (total f V u + alpha) := by
  obtain ⟨st', hst', htw⟩ := hg.at' hst
  obtain ⟨h1, h2, h3, h4⟩ := (wf.states u st' hst').unigram rfl
  have hv := h1.value
  have hfin : Arith.xr.isInf st'.final = false :=
    (laws (beta := 1/2) (by norm_num) (by norm_num)).finite _ h1
  have hfilter : st'.arcs.filter (fun a => a.label != 0) = st'.arcs := by
    rw [List.filter_eq_self]
    intro a ha'; simp only [bne_iff_ne, ne_eq]; exact h3 a ha'
  have ht : total f V u = value st'.final + (st'.arcs.map fun a => value a.weight).sum := by
    rw [total_eq, wf.sum_count _ hst', hfilter]
    simp only [stateCount, if_true]
    rw [if_neg (by simp only [decide_eq_false_iff_not] at hfin; simp [hfin])]
    rfl
  have hok : ∀ a ∈ st'.arcs, 0 ≤ value a.weight := fun a ha' => by
    have := (((wf.states u st' hst').arcs a ha' (h3 a ha')).1).value.1
    linarith
  have hle : ∀ a ∈ st'.arcs, value a.weight ≤ total f V u := by
    intro a ha'
    have := List.single_le_sum (l := st'.arcs.map fun a => value a.weight) (fun x hx => by
      obtain ⟨b, hb, rfl⟩ := List.mem_map.1 hx; exact hok b hb) _ (List.mem_map.2 ⟨a, ha', rfl⟩)
    linarith [hv.1]
  have hsum : 0 ≤ (st'.arcs.map fun a => value a.weight).sum := List.sum_nonneg (fun x hx => by
    obtain ⟨b, hb, rfl⟩ := List.mem_map.1 hx; exact hok b hb)
  have hf : CountTwin φ ε st.final st'.final := by
    rcases htw.final with h | ⟨_, h⟩
    · exact h
    · rw [h] at hfin; simp at hfin
  have hS1 : 1 ≤ total f V u := by linarith [hv.1]
  have key := totalFrom_near htw.arcs (e := total f V u * ε) (p := value st'.final) (acc := st.final)
    (fun a ha' => ⟨h3 a ha', mul_le_mul_of_nonneg_right (hle a ha') hε⟩) (hf.near.2.mono (mul_le_mul_of_nonneg_right (by linarith) hε))
  rw [← ht, h2] at key
  have := CostNear.nls F key ((cost_fin F ha).mono (f := total f V u * ε + V * ε) (by
    have : 0 ≤ (V : ℝ) * ε := by positivity
    nlinarith))
  exact this.mono (by linarith)

/-- The vectors of a state hold the documented distribution, up to rounding. -/
structure DistNear (φ : Prop) (e e' : ℝ) (f : Fst XR) (ε alpha beta : ℝ) (V s : Nat) (d : Data XR) (p : ℕ → ℝ) (N : ℝ) : Prop where
  costs : CostsNear φ e ((V + 1) * ε) V d.costs p
  prob : ∀ y ≤ V, Prob f alpha beta V y s (p y)
  pos : ∀ y ≤ V, 0 < p y
  sum : ∑ y ∈ Finset.range (V + 1), p y = 1
  norm : CostNear φ e' d.norm N
  isNorm : Norm f alpha V s N
  norm_pos : 0 < N

theorem rawInit_node (F : Rounding φ ε δ) {st : FState XR} {b : Nat} {bd : Data XR} {y : Nat} {c : XR} (h : bd.costs[y]? = some c) :
    (rawInit F.arith (.fin alpha) (.fin beta) st (some b) bd)[y]? =
      some (F.times c (gammaOf F.arith (.fin alpha) (.fin beta) (denominatorOf F.arith (.fin alpha) st) st)) := by
  simp only [rawInit]
  rw [List.getElem?_map, h]; rfl

theorem mix_near {l G M η : ℝ} (hl : 0 < l) (hG : 0 < G) (hM : 0 ≤ M) (h1 : G + M = 1) (hη : 0 ≤ η) (h : |log l| ≤ η) :
    |log (l * G + M) - log 1| ≤ η := by
  rw [← sub_zero (log l), ← Real.log_one, abs_log_le hl one_pos] at h
  have hsp : 0 < l * G + M := by
    have := mul_pos hl hG
    linarith
  rw [abs_log_le hsp one_pos]
  rw [one_mul, one_mul] at h ⊢
  have hup : (1 : ℝ) ≤ exp η := Real.one_le_exp hη
  have hdn : exp (-η) ≤ 1 := Real.exp_le_one_iff.2 (by linarith)
  have k1 := mul_le_mul_of_nonneg_right h.1 hG.le
  have k2 := mul_le_mul_of_nonneg_right h.2 hG.le
  have k3 := mul_le_mul_of_nonneg_right hdn hM
  have k4 := mul_le_mul_of_nonneg_right hup hM
  have e1 : exp (-η) = exp (-η) * G + exp (-η) * M := by rw [← mul_add, h1, mul_one]
  have e2 : exp η = exp η * G + exp η * M := by rw [← mul_add, h1, mul_one]
  constructor
  · rw [e1]; linarith
  · rw [e2]; linarith

set_option maxHeartbeats 1000000 in
theorem ideal_near (hδ0 : 0 ≤ δ) (hδ1 : δ < 1) (ha : 0 < alpha) (hg : FstTwin (twin F hε hb hb1) g f)
    (wf : WF Arith.xr OkR f ord mo V u) (ht : Totals f V) (hT : ∀ s, s < f.states.length → total f V s ≤ T)
    (hK0 : 0 ≤ K) (hK : beta * exp ((T + 1) * ε) * (K + 1) ≤ K) :
    ∀ s, s < g.states.length → ∀ d, Ideal F.arith g (.fin alpha) (.fin beta) s d →
      ∃ p N, DistNear φ (scoreError ε δ T K V (ord s)) ((T + V + 1) * ε) f ε alpha beta V s d p N := by
  have L := lawsF F hε hb hb1
  have wg : WF F.arith (OkF ε) g ord mo V u := hg.wf (Ok := OkF ε) (Ok' := OkR) (fun c c' (h : CountTwin φ ε c c') => h.1) (fun c hc => (laws (beta := 1/2) (by norm_num) (by norm_num)).finite c hc) wf
  have hlen := hg.length
  have hsl := slack_nonneg hδ0 hδ1
  have hV0 : (0 : ℝ) ≤ V := by positivity
  have hT1 : 1 ≤ T := by
    have h1 := hT u wf.u_lt
    have := cnt_le_total wf (s := u) (y := 0) (by omega)
    have hc := wf.count_u (laws (beta := 1/2) (by norm_num) (by norm_num)) (y := ((0 : Nat) : Int)) (by omega) (by omega)
    obtain ⟨w, hw⟩ := Option.isSome_iff_exists.mp hc
    have hv := (wf.count_ok hw).value
    have hcw : cnt f u 0 = value w := by rw [cnt_eq, hw]; rfl
    linarith [hv.1]
  have key : ∀ k s, ord s = k → s < g.states.length → ∀ d, Ideal F.arith g (.fin alpha) (.fin beta) s d →
      ∃ p N, DistNear φ (scoreError ε δ T K V k) ((T + V + 1) * ε) f ε alpha beta V s d p N := by
    intro k
    induction k with
    | zero =>
      intro s hk hs d hd
      have hu : s = u := by
        apply Classical.byContradiction
        intro hu
        obtain ⟨b, _, _, ho⟩ := wg.backoff_node hs hu
        omega
      subst hu
      obtain ⟨st, bd, hst, _, h1 | ⟨h1, _⟩⟩ := hd.cases' L wg hs
      · exact absurd rfl h1.1
      obtain ⟨raw, r1, r2, r3⟩ := h1.costs
      have hbo := wg.backoff_u
      have hbo' : backoff f s = none := by rw [hg.back]; exact hbo
      have hS := wf.total_u_pos
      have hden := den_u_near ha hg wf hst
      generalize hdg : denominatorOf F.arith (.fin alpha) st = den at hden r3
      -- the denominator stands for some number
      obtain ⟨D, hD, hdD⟩ : ∃ D, 0 < D ∧ CostNear φ 0 den D := by
        by_cases hn : den = .nan
        · exact ⟨1, one_pos, .inl ⟨hden.flag hn, hn⟩⟩
        · obtain ⟨t, rfl, _⟩ := hden.fin_of (by positivity) hn
          exact ⟨_, exp_pos _, .self⟩
      have hcnt : ∀ y < V + 1, ∃ c, count F.arith g s (y : Nat) = some c := by
        intro y hy
        have hc := wg.count_u L (y := (y : Int)) (by omega) (by omega)
        exact Option.isSome_iff_exists.mp hc
      have hraw : ∀ y < V + 1, ∃ c, raw[y]? = some c ∧ CostNear φ ((T + 1) * ε) c (cnt f s y / D) := by
        intro y hy
        obtain ⟨w, hw⟩ := hcnt y hy
        refine ⟨F.over w den, ?_, ?_⟩
        · rw [r3 y hy, hw]
          simp only
          have hl : (rawInit F.arith (.fin alpha) (.fin beta) st (backoff g s) bd)[y]? = some (.fin 0) := by
            rw [hbo]
            have := ((wg.states s st hst).unigram rfl).2.1
            simp only [rawInit]
            rw [List.getElem?_replicate, if_pos (by omega)]
          rw [hl, hbo]
          simp only [Option.map_some, idOf, blend]
          rw [if_pos (by simp)]
        · obtain ⟨c1, c2⟩ := count_some hg hw
          have := CostNear.over F c2 hdD hD
          refine this.mono ?_
          have h3 : cnt f s y ≤ T := (cnt_le_total wf hy).trans (hT s wf.u_lt)
          nlinarith
      have hpos : ∀ y < V + 1, 0 < cnt f s y := by
        intro y hy
        obtain ⟨w, hw⟩ := hcnt y hy
        linarith [(count_some hg hw).1]
      have hsum : ∑ y ∈ Finset.range (V + 1), cnt f s y / D = total f V s / D := by rw [← Finset.sum_div]; rfl
      have hws := softmax_near F hε (R := (T + 1) * ε) (Rs := (T + 1) * ε) (Q := total f V s / D) (q := fun y => cnt f s y / D) r2 hraw
        (fun y hy => div_pos (hpos y hy) hD) (by positivity) (fun hn => by
          rw [← hsum]
          refine log_sum_near V (fun y hy => ?_) (fun y hy => div_pos (hpos y hy) hD) fun y hy => ?_
          all_goals
            obtain ⟨c, hc, hc2⟩ := hraw y hy
            have hne : c ≠ .nan := fun e => hn (e ▸ List.mem_of_getElem? hc)
            rw [getD_of hc]
          · obtain ⟨v, hv, _⟩ := hc2.fin_of (div_pos (hpos y hy) hD) hne
            exact value_pos ⟨v, hv⟩
          · exact CostNear.value hc2 (div_pos (hpos y hy) hD) hne) r1
      have hq : ∀ y, cnt f s y / D / (total f V s / D) = cnt f s y / total f V s := by
        intro y; field_simp
      simp only [hq] at hws
      refine ⟨fun y => cnt f s y / total f V s, total f V s + alpha, ⟨hws.length, fun y hy => ?_, hws.sum⟩, ?_, ?_, ?_, ?_, .unigram hbo', by positivity⟩
      · obtain ⟨c, h2, h3⟩ := hws.near y hy
        refine ⟨c, h2, h3.mono ?_⟩
        unfold scoreError
        simp only [Nat.cast_zero, zero_mul, add_zero]
        linarith
      · intro y _; exact .unigram hbo'
      · intro y hy; exact div_pos (hpos y (by omega)) hS
      · rw [← Finset.sum_div]; exact div_self hS.ne'
      · rw [h1.norm, hdg]
        have := hT s wf.u_lt
        exact hden.mono (mul_le_mul_of_nonneg_right (by linarith) hε)
    | succ k ih =>
      intro s hk hs d hd
      have hu : s ≠ u := by intro e; rw [e, wg.ord_u] at hk; cases hk
      obtain ⟨b, hbg, hbl, ho⟩ := wg.backoff_node hs hu
      have hbf : backoff f s = some b := by rw [hg.back]; exact hbg
      have hstep : 0 ≤ stepError ε δ T K V := by unfold stepError; positivity
      have hE : 0 ≤ scoreError ε δ T K V k := by
        unfold scoreError
        have : 0 ≤ (2 * T + V + 3) * ε := mul_nonneg (by linarith) hε
        positivity
      have hEs : scoreError ε δ T K V (k + 1) = scoreError ε δ T K V k + stepError ε δ T K V := by
        unfold scoreError; push_cast; ring
      obtain ⟨st, bd, hst, hbd, h1 | ⟨h1, y0, hy0, hc0⟩⟩ := hd.cases' L wg hs
      · obtain ⟨p, N, hp⟩ := ih b (by omega) hbl bd (hbd b hbg).1
        have h0 := (wf.unseen_iff s).mp (hg.unseen h1.2.1)
        rw [h1.2.2]
        refine ⟨p, N, ⟨hp.costs.length, fun y hy => ?_, hp.costs.sum⟩, fun y hy => .unseen hbf h0 (hp.prob y hy), hp.pos, hp.sum, hp.norm,
          .unseen hbf h0 hp.isNorm, hp.norm_pos⟩
        obtain ⟨c, h2, h3⟩ := hp.costs.near y hy
        exact ⟨c, h2, h3.mono (by rw [hEs]; linarith)⟩
      obtain ⟨p, N, hp⟩ := ih b (by omega) hbl bd (hbd b hbg).1
      have hsf : s < f.states.length := by rw [hlen]; exact hs
      have hST := hT s hsf
      have hS : 0 < total f V s := by
        obtain ⟨c, hc⟩ := Option.isSome_iff_exists.mp hc0
        have := (count_some hg hc).1
        linarith [cnt_le_total wf (s := s) (y := y0) (by omega)]
      obtain ⟨raw, r1, r2, r3⟩ := h1.costs
      have hden := den_near ha hg wf ht hst hbf hS
      have hgam := gamma_near hδ0 hδ1 ha hg wf ht hst hbf hS
      generalize hgg : gammaOf F.arith (.fin alpha) (.fin beta) (denominatorOf F.arith (.fin alpha) st) st = gam at hgam
      generalize hdg : denominatorOf F.arith (.fin alpha) st = den at hden r3
      set G := (distinct f V s * beta + alpha) / (total f V s + alpha) with hG
      have hGpos : 0 < G := by rw [hG]; positivity
      set ell := (2 + K) * T * ε + (6 + K) * ε + slack δ with hell
      have hTe : total f V s * ε ≤ T * ε := mul_le_mul_of_nonneg_right hST hε
      have hTe0 : 0 ≤ T * ε := by positivity
      have hKTe : 0 ≤ K * (T * ε) := by positivity
      have hKe : 0 ≤ K * ε := by positivity
      have hell0 : 0 ≤ ell := by rw [hell]; nlinarith
      -- the discounted count, over the denominator
      let mu : ℕ → ℝ := fun y => max (cnt f s y - beta) 0 / (total f V s + alpha)
      have hmu0 : ∀ y, 0 ≤ mu y := fun y => div_nonneg (le_max_right _ _) (by positivity)
      -- what is made of the cost of a symbol after the shorter context
      let cook : Nat → XR → XR := fun y c =>
        match count F.arith g s (y : Nat) with
        | some w => F.nls (F.times c gam) (F.over (F.nld w (F.cost (.fin beta))) den)
        | none => F.times c gam
      have hcook : ∀ y < V + 1, ∀ {c : XR} {e p0 : ℝ}, 0 ≤ e → CostNear φ e c p0 →
          CostNear φ (e + ell + 2 * ε) (cook y c) (p0 * G + mu y) := by
        intro y hy c e p0 he hc
        have h2 : CostNear φ (e + ell + ε) (F.times c gam) (p0 * G) := (CostNear.times F hc hgam).mono (by rw [hell]; nlinarith)
        simp only [cook, mu]
        cases hw : count F.arith g s (y : Nat) with
        | none =>
          simp only
          have := count_none hg hw
          rw [this, max_eq_right (by linarith), zero_div, add_zero]
          exact h2.mono (by linarith)
        | some w =>
          simp only
          obtain ⟨c1, c2⟩ := count_some hg hw
          have hcT : cnt f s y ≤ T := (cnt_le_total wf hy).trans hST
          have hce : cnt f s y * ε ≤ T * ε := mul_le_mul_of_nonneg_right hcT hε
          have h3 := CostNear.nld F (K := K) c2 (cost_fin F hb) (by linarith) hb hK0 (by
            have : exp (cnt f s y * ε + ε) ≤ exp ((T + 1) * ε) := Real.exp_le_exp.2 (by linarith)
            calc beta * exp (cnt f s y * ε + ε) * (K + 1) ≤ beta * exp ((T + 1) * ε) * (K + 1) :=
                  mul_le_mul_of_nonneg_right (mul_le_mul_of_nonneg_left this hb.le) (by linarith)
              _ ≤ K := hK
              _ ≤ K * cnt f s y := by nlinarith)
          have hbl1 : beta < 1 := by
            have : (1 : ℝ) ≤ exp (2 * ε) := Real.one_le_exp (by linarith)
            nlinarith
          have h4 := CostNear.over F h3 hden (by positivity)
          rw [max_eq_left (by linarith)]
          have h5 : CostNear φ (e + ell + ε) (F.over (F.nld w (F.cost (.fin beta))) den) ((cnt f s y - beta) / (total f V s + alpha)) := by
            refine h4.mono ?_
            have : (cnt f s y * ε + ε) * K ≤ (T * ε + ε) * K := mul_le_mul_of_nonneg_right (by linarith) hK0
            rw [hell]; nlinarith
          exact (CostNear.nls F h2 h5).mono (by linarith)
      have hrawc : ∀ y < V + 1, ∃ c, bd.costs[y]? = some c ∧ raw[y]? = some (cook y c) := by
        intro y hy
        obtain ⟨c, hc, _⟩ := hp.costs.near y hy
        refine ⟨c, hc, ?_⟩
        rw [r3 y hy, hbg, rawInit_node F hc, hgg]
        have hdec : decide (idOf (some b) < 0) = false := by
          rw [decide_eq_false_iff_not]; show ¬ ((b : Int) < 0); omega
        rw [hdec]
        simp only [cook, Option.map_some, blend]
        cases count F.arith g s (y : Nat) with
        | none => rfl
        | some w => simp
      let q : ℕ → ℝ := fun y =>
        (max (cnt f s y - beta) 0 + (distinct f V s * beta + alpha) * p y) / (total f V s + alpha)
      have hqe : ∀ y, q y = p y * G + mu y := by
        intro y; simp only [q, mu]; rw [hG]; ring
      have hq0 : ∀ y < V + 1, 0 < q y := by
        intro y hy
        rw [hqe]
        have := mul_pos (hp.pos y (by omega)) hGpos
        linarith [hmu0 y]
      have hCsum : ∑ y ∈ Finset.range (V + 1), max (cnt f s y - beta) 0 = total f V s - distinct f V s * beta := by
        rw [distinct_eq, Finset.sum_mul]
        unfold total
        rw [← Finset.sum_sub_distrib]
        refine Finset.sum_congr rfl fun y _ => ?_
        rw [cnt_eq]
        cases hc : count Arith.xr f s (y : Nat) with
        | none =>
          simp only [num]
          rw [max_eq_right (by linarith)]; ring
        | some w =>
          have hv := (wf.count_ok hc).value
          have hbl1 : beta < 1 := by
            have : (1 : ℝ) ≤ exp (2 * ε) := Real.one_le_exp (by linarith)
            nlinarith
          simp only [num]
          rw [max_eq_left (by linarith [hv.1])]; ring
      have hmuG : G + ∑ y ∈ Finset.range (V + 1), mu y = 1 := by
        simp only [mu]
        rw [← Finset.sum_div, hCsum, hG, ← add_div, div_eq_one_iff_eq (by positivity)]; ring
      have hqsum : ∑ y ∈ Finset.range (V + 1), q y = 1 := by
        rw [Finset.sum_congr rfl (fun y _ => hqe y), Finset.sum_add_distrib, ← Finset.sum_mul, hp.sum, one_mul]; exact hmuG
      have hraw : ∀ y < V + 1, ∃ c, raw[y]? = some c ∧ CostNear φ (scoreError ε δ T K V k + ell + 2 * ε) c (q y) := by
        intro y hy
        obtain ⟨c, hc, hc2⟩ := hrawc y hy
        obtain ⟨c', hc', hc3⟩ := hp.costs.near y hy
        rw [hc] at hc'
        injection hc' with hc'
        subst hc'
        exact ⟨_, hc2, by rw [hqe]; exact hcook y hy hE hc3⟩
      have hcn : ∀ y, cook y .nan = .nan := by
        intro y
        simp only [cook]
        cases count F.arith g s (y : Nat) with
        | none => simp only [times_nan_left]
        | some w => simp only [times_nan_left, nls_nan_left]
      have hws := softmax_near F hε (R := scoreError ε δ T K V k + ell + 2 * ε) (Rs := ell + 2 * ε + (V + 1) * ε) (Q := 1) (q := q) r2 hraw hq0 one_pos
        (fun hn => by
          have hnb : XR.nan ∉ bd.costs := by
            intro hm
            obtain ⟨i, hi⟩ := List.getElem?_of_mem hm
            have hlt : i < V + 1 := by rw [← hp.costs.length]; exact lt_of_getElem?_eq_some hi
            obtain ⟨c, hc, hc2⟩ := hrawc i hlt
            rw [hi] at hc
            injection hc with hc
            rw [← hc, hcn] at hc2
            exact hn (List.mem_of_getElem? hc2)
          have hfin : ∀ y < V + 1, ∃ c, bd.costs[y]? = some c ∧ (∃ v, c = .fin v) ∧ raw[y]? = some (cook y c) := by
            intro y hy
            obtain ⟨c, hc, hc2⟩ := hrawc y hy
            obtain ⟨c', hc', hc3⟩ := hp.costs.near y hy
            rw [hc] at hc'
            injection hc' with hc'
            subst hc'
            obtain ⟨v, hv, _⟩ := hc3.fin_of (hp.pos y (by omega)) (fun e => hnb (e ▸ List.mem_of_getElem? hc))
            exact ⟨c, hc, ⟨v, hv⟩, hc2⟩
          have h2 : |log (∑ y ∈ Finset.range (V + 1), value (raw.getD y .nan)) -
              log (∑ y ∈ Finset.range (V + 1), (value (bd.costs.getD y .nan) * G + mu y))| ≤ ell + 2 * ε := by
            refine log_sum_near V (fun y hy => ?_) (fun y hy => ?_) fun y hy => ?_
            all_goals
              obtain ⟨c, hc, hcf, hc2⟩ := hfin y hy
              have hvp := value_pos hcf
              have hpos : 0 < value c * G + mu y := by
                have := mul_pos hvp hGpos
                linarith [hmu0 y]
              have hck := hcook y hy le_rfl (value_near' (φ := φ) hcf)
              have hne : cook y c ≠ .nan := fun e => hn (e ▸ List.mem_of_getElem? hc2)
            · rw [getD_of hc2]
              obtain ⟨v, hv, _⟩ := hck.fin_of hpos hne
              exact value_pos ⟨v, hv⟩
            · rw [getD_of hc]; exact hpos
            · rw [getD_of hc2, getD_of hc]
              exact (CostNear.value hck hpos hne).trans (by linarith)
          rw [Finset.sum_add_distrib, ← Finset.sum_mul] at h2
          have h3 := hp.costs.sum hnb
          set Lam := ∑ y ∈ Finset.range (V + 1), value (bd.costs.getD y .nan) with hLam
          have hLpos : 0 < Lam := by
            refine Finset.sum_pos (fun y hy => ?_) ⟨0, by simp⟩
            obtain ⟨c, hc, hcf, _⟩ := hfin y (Finset.mem_range.1 hy)
            rw [getD_of hc]; exact value_pos hcf
          have hM0 : 0 ≤ ∑ y ∈ Finset.range (V + 1), mu y := Finset.sum_nonneg fun y _ => hmu0 y
          have hsp : 0 < Lam * G + ∑ y ∈ Finset.range (V + 1), mu y := by
            have := mul_pos hLpos hGpos
            linarith
          have h4 : |log (Lam * G + ∑ y ∈ Finset.range (V + 1), mu y) - log 1| ≤ (V + 1) * ε := mix_near hLpos hGpos hM0 hmuG (by positivity) h3
          have : log (∑ y ∈ Finset.range (V + 1), value (raw.getD y .nan)) - log 1 =
              (log (∑ y ∈ Finset.range (V + 1), value (raw.getD y .nan)) - log (Lam * G + ∑ y ∈ Finset.range (V + 1), mu y)) +
              (log (Lam * G + ∑ y ∈ Finset.range (V + 1), mu y) - log 1) := by ring
          rw [this]
          exact (abs_add_le _ _).trans (add_le_add h2 h4)) r1
      simp only [div_one] at hws
      refine ⟨q, total f V s + alpha, ⟨hws.length, fun y hy => ?_, hws.sum⟩, ?_, fun y hy => hq0 y (by omega), hqsum, ?_, .seen hbf hS, by positivity⟩
      · obtain ⟨c, h2, h3⟩ := hws.near y hy
        refine ⟨c, h2, h3.mono ?_⟩
        rw [hEs]
        unfold stepError
        rw [← hell]
        linarith
      · intro y hy; exact .seen hbf hS (hp.prob y hy)
      · rw [h1.norm, hdg]
        refine hden.mono ?_
        have : 0 ≤ (V : ℝ) * ε := by positivity
        linarith
  exact fun s hs => key _ s rfl hs

end Numbers

end Mozolm.Ppm
