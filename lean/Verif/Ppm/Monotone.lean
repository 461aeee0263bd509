import Verif.Ppm.Totals

/-! # Observing a symbol makes it more probable -/

namespace Mozolm.Ppm
open XR
open scoped BigOperators

/-- There is one probability. -/
theorem Prob.unique {f : Fst XR} {alpha beta : ℝ} {V y s : Nat} {p q : ℝ} (h : Prob f alpha beta V y s p)
    (h' : Prob f alpha beta V y s q) : p = q := by
  induction h generalizing q with
  | unigram hb =>
    cases h' with
    | unigram => rfl
    | unseen hb' => rw [hb] at hb'; cases hb'
    | seen hb' => rw [hb] at hb'; cases hb'
  | unseen hb h0 _ ih =>
    cases h' with
    | unigram hb' => rw [hb] at hb'; cases hb'
    | unseen hb' _ h' => rw [hb] at hb'; injection hb' with e; subst e; exact ih h'
    | seen hb' h1 => linarith
  | seen hb h1 _ ih =>
    cases h' with
    | unigram hb' => rw [hb] at hb'; cases hb'
    | unseen hb' h0 => linarith
    | seen hb' _ h' => rw [hb] at hb'; injection hb' with e; subst e; rw [ih h']

section
variable {f : Fst XR} {ord : Nat → Nat} {mo : Int} {V u : Nat} {alpha beta : ℝ}

/-- Probabilities exist and are strictly between zero and one. -/
theorem WF.prob (wf : WF Arith.xr OkR f ord mo V u) (ht : Totals f V) (ha : 0 < alpha) (hb0 : 0 < beta)
    (hb1 : beta < 1) {s : Nat} (hs : s < f.states.length) {y : Nat} (hy : y ≤ V) :
    ∃ p, Prob f alpha beta V y s p ∧ 0 < p ∧ p < 1 := by
  obtain ⟨d, hd, _⟩ := wf.ideal (laws hb0 hb1) (.fin alpha) s hs
  obtain ⟨p, N, dist⟩ := ideal_dist wf ht ha hb0 hb1 s hs d hd
  refine ⟨p y, dist.prob y hy, dist.pos y hy, ?_⟩
  obtain ⟨z, hz, hzy⟩ : ∃ z, z ≤ V ∧ z ≠ y := by
    have := wf.V_pos
    by_cases h : y = 0
    · exact ⟨1, by omega, by omega⟩
    · exact ⟨0, by omega, by omega⟩
  have h1 : p y + p z ≤ ∑ i ∈ Finset.range (V + 1), p i := by
    have hsub : ({y, z} : Finset ℕ) ⊆ Finset.range (V + 1) := by
      intro i hi
      simp only [Finset.mem_insert, Finset.mem_singleton] at hi
      rw [Finset.mem_range]; omega
    have := Finset.sum_le_sum_of_subset_of_nonneg hsub
      (f := p) (fun i hi _ => (dist.pos i (by rw [Finset.mem_range] at hi; omega)).le)
    rwa [Finset.sum_pair (fun e => hzy e.symm)] at this
  have := dist.pos z hz
  rw [dist.sum] at h1
  linarith

theorem WF.distinct_le (wf : WF Arith.xr OkR f ord mo V u) (s : Nat) : (distinct f V s : ℝ) ≤ total f V s := by
  rw [distinct_eq, total_eq]
  refine Finset.sum_le_sum fun y _ => ?_
  cases hc : count Arith.xr f s (y : Nat) with
  | none => simp [num]
  | some w => simp only [num]; exact (wf.count_ok hc).value.1

end

section
variable {c c' : Core XR} {ord ord' : Nat → Nat} {V u s : Nat} {y : Nat} {alpha beta : ℝ}

/-- An observation adds one symbol to those observed where it had not been. -/
theorem Observed.distinct (h : Observed Arith.xr OkR c c' ord ord' V u s y)
    (hyV : y ≤ V) {x : Nat} (hx : x < c.fst.states.length) (hex : Excluded Arith.xr c.fst y s x) :
    (Ppm.distinct c'.fst V x : ℝ) = Ppm.distinct c.fst V x + (if (count Arith.xr c.fst x y).isSome then 0 else 1) := by
  rw [distinct_eq, distinct_eq]
  have hsplit : ∀ z ∈ Finset.range (V + 1), num (fun _ => 1) (count Arith.xr c'.fst x (z : Nat)) =
      num (fun _ => 1) (count Arith.xr c.fst x (z : Nat)) +
        (if z = y then (if (count Arith.xr c.fst x y).isSome then (0 : ℝ) else 1) else 0) := by
    intro z _
    by_cases hz : z = y
    · subst hz
      rw [if_pos rfl, h.count_self x hex]
      cases count Arith.xr c.fst x (z : Nat) <;> simp [num]
    · rw [if_neg hz, add_zero, h.count_other x z hx (by omega)]
  rw [Finset.sum_congr rfl hsplit, Finset.sum_add_distrib, Finset.sum_ite_eq', if_pos]
  rw [Finset.mem_range]; omega

/-- The contexts an observation counts in are no shorter than the longest where it was observed. -/
theorem Origin.le_excluded {f : Fst XR} {mo : Int} (wf : WF Arith.xr OkR f ord mo V u) {y : Int} {s o x : Nat}
    (h : Origin Arith.xr f y s o) (hx : Excluded Arith.xr f y s x) : ord o ≤ ord x := by
  induction h with
  | here hc =>
    obtain ⟨w, hw⟩ := Option.isSome_iff_exists.mp hc
    rw [(excluded_iff_some hw).mp hx]
  | lower hc hb hrest ih =>
    have hw := wf.of_backoff hb
    rcases (excluded_iff_none hc hb).mp hx with rfl | hx
    · have := (hrest.lt wf hw.2.2.1).2.1; omega
    · exact ih hx

theorem Excluded.snoc {f : Fst XR} {y : Int} {s x b : Nat} (h : Excluded Arith.xr f y s x)
    (hc : count Arith.xr f x y = none) (hb : backoff f x = some b) : Excluded Arith.xr f y s b := by
  induction h with
  | here => exact .lower hc hb .here
  | lower h1 h2 _ ih => exact .lower h1 h2 (ih hc hb)

/-- Probabilities after contexts that did not change. -/
theorem prob_same {f f' : Fst XR} {mo : Int} (wf : WF Arith.xr OkR f ord mo V u) {k : Nat}
    (h : ∀ x, x < f.states.length → ord x ≤ k → f'.states[x]? = f.states[x]?) {x : Nat}
    (hx : x < f.states.length) (hk : ord x ≤ k) {y : Nat} {p : ℝ} (hp : Prob f alpha beta V y x p) :
    Prob f' alpha beta V y x p := by
  have hcnt : ∀ x, x < f.states.length → ord x ≤ k → cnt f' x y = cnt f x y := by
    intro x h1 h2; rw [cnt_eq, cnt_eq, count_congr (A := Arith.xr) (h x h1 h2)]
  have hdis : ∀ x, x < f.states.length → ord x ≤ k → Ppm.distinct f' V x = Ppm.distinct f V x := by
    intro x h1 h2
    unfold Ppm.distinct
    congr 1
    refine Finset.filter_congr fun z _ => ?_
    rw [count_congr (A := Arith.xr) (h x h1 h2)]
  induction hp with
  | unigram hb =>
    rw [← hcnt _ hx hk, ← total_congr (V := V) (h _ hx hk)]
    exact .unigram (by rw [backoff_congr (h _ hx hk)]; exact hb)
  | unseen hb h0 _ ih =>
    have hw := wf.of_backoff hb
    exact .unseen (by rw [backoff_congr (h _ hx hk)]; exact hb) (by rw [total_congr (V := V) (h _ hx hk)]; exact h0)
      (ih hw.2.2.1 (by omega))
  | seen hb h0 _ ih =>
    have hw := wf.of_backoff hb
    rw [← hcnt _ hx hk, ← total_congr (V := V) (h _ hx hk), ← hdis _ hx hk]
    exact .seen (by rw [backoff_congr (h _ hx hk)]; exact hb) (by rw [total_congr (V := V) (h _ hx hk)]; exact h0)
      (ih hw.2.2.1 (by omega))

/-- One observation makes the symbol strictly more probable after each context it counts in. -/
theorem Observed.prob_lt (wf : WF Arith.xr OkR c.fst ord c.maxOrder V u) (ht : Totals c.fst V)
    (h : Observed Arith.xr OkR c c' ord ord' V u s y) (hs : s < c.fst.states.length) (hyV : y ≤ V)
    (ha : 0 < alpha) (hb0 : 0 < beta) (hb1 : beta < 1) {o : Nat} (hso : Origin Arith.xr c.fst y s o) :
    ∀ {x : Nat}, Origin Arith.xr c.fst y x o → x < c.fst.states.length → Excluded Arith.xr c.fst y s x →
    ∀ {p q : ℝ}, Prob c.fst alpha beta V y x p → Prob c'.fst alpha beta V y x q → p < q := by
  have ht' : Totals c'.fst V := h.totals wf hs (by omega) (by omega) ht
  intro x hxo
  induction hxo with
  | here hc =>
    rename_i x
    intro hx hex p q hp hq
    obtain ⟨w, hw⟩ := Option.isSome_iff_exists.mp hc
    have hv := (wf.count_ok hw).value
    have hcnt : cnt c.fst x y = value w := by rw [cnt_eq, hw]; rfl
    have hcnt' : cnt c'.fst x y = cnt c.fst x y + 1 := by
      rw [cnt_eq, cnt_eq, h.count_self x hex]
      exact bump_value (fun v hv => wf.count_ok hv)
    have htot := h.total wf (by omega) (by omega) hx hex
    have hdis : (Ppm.distinct c'.fst V x : ℝ) = Ppm.distinct c.fst V x := by
      rw [h.distinct hyV hx hex, hw]; simp
    have hpos : 0 < Ppm.total c.fst V x := by
      rcases (wf.total_nonneg x).eq_or_lt with h0 | h0
      · have := (wf.unseen_iff x).mpr h0.symm y
        rw [hw] at this; cases this
      · exact h0
    obtain ⟨p', hp', _, hlt⟩ := wf.prob ht ha hb0 hb1 hx hyV
    have := hp.unique hp'; subst this
    cases hp with
    | unigram hb =>
      cases hq with
      | unseen hb' => rw [h.sameBackoff x hx, hb] at hb'; cases hb'
      | seen hb' => rw [h.sameBackoff x hx, hb] at hb'; cases hb'
      | unigram _ =>
        rw [htot, hcnt']
        rw [div_lt_one hpos] at hlt
        rw [div_lt_div_iff₀ hpos (by linarith)]
        nlinarith
    | unseen _ h0 => linarith
    | seen hb _ hpb =>
      cases hq with
      | unigram hb' => rw [h.sameBackoff x hx, hb] at hb'; cases hb'
      | unseen _ h0 => linarith
      | seen hb' _ hqb =>
        rw [h.sameBackoff x hx, hb] at hb'; injection hb' with e; subst e
        have hw' := wf.of_backoff hb
        have hsame := prob_same (f' := c'.fst) wf (k := ord x - 1) (fun z hz hk => h.outside z hz (fun hez => by
          have := hso.le_excluded wf hez; omega)) hw'.2.2.1 (by omega) hpb
        have := hsame.unique hqb; subst this
        rw [htot, hcnt', hdis]
        rw [max_eq_left (by linarith [hv.1]), ] at hlt ⊢
        rw [max_eq_left (by linarith [hv.1])]
        rw [div_lt_one (by linarith)] at hlt
        rw [div_lt_div_iff₀ (by linarith) (by linarith)]
        nlinarith
  | lower hc hb hrest ih =>
    rename_i x b o
    intro hx hex p q hp hq
    have hw' := wf.of_backoff hb
    have hcnt : cnt c.fst x y = 0 := by rw [cnt_eq, hc]; rfl
    have hcnt' : cnt c'.fst x y = 1 := by
      rw [cnt_eq, h.count_self x hex]
      have := bump_value (w := count Arith.xr c.fst x y) (fun v hv => wf.count_ok hv)
      rw [show num value (some (bump Arith.xr (count Arith.xr c.fst x y))) = value (bump Arith.xr (count Arith.xr c.fst x y)) from rfl,
        this, hc]
      simp [num]
    have htot := h.total wf (by omega) (by omega) hx hex
    have hdis : (Ppm.distinct c'.fst V x : ℝ) = Ppm.distinct c.fst V x + 1 := by
      rw [h.distinct hyV hx hex, hc]; simp
    have hnn := wf.total_nonneg x
    have hexb := hex.snoc hc hb
    have hlen := h.len
    obtain ⟨pb, hpb, hpb0, _⟩ := wf.prob ht ha hb0 hb1 hw'.2.2.1 hyV (alpha := alpha)
    obtain ⟨qb, hqb, _, hqb1⟩ := h.wf.prob ht' ha hb0 hb1 (s := b) (by omega) hyV (alpha := alpha)
    have hlt := ih hso hw'.2.2.1 hexb hpb hqb
    cases hq with
    | unigram hb' => rw [h.sameBackoff x hx, hb] at hb'; cases hb'
    | unseen _ h0 => linarith
    | seen hb' _ hqb' =>
      rw [h.sameBackoff x hx, hb] at hb'; injection hb' with e; subst e
      have := hqb.unique hqb'; subst this
      rw [htot, hcnt', hdis, max_eq_left (by linarith)]
      cases hp with
      | unigram hb' => rw [hb] at hb'; cases hb'
      | unseen hb' h0 hpb' =>
        rw [hb] at hb'; injection hb' with e; subst e
        have := hpb.unique hpb'; subst this
        have hd0 : (Ppm.distinct c.fst V x : ℝ) = 0 := by
          have := wf.distinct_le x
          rw [h0] at this
          exact le_antisymm this (by positivity)
        rw [h0, hd0, lt_div_iff₀ (by linarith)]
        nlinarith
      | seen hb' h1 hpb' =>
        rw [hb] at hb'; injection hb' with e; subst e
        have := hpb.unique hpb'; subst this
        rw [hcnt, max_eq_right (by linarith), div_lt_div_iff₀ (by linarith) (by linarith)]
        have hUS := wf.distinct_le x
        generalize Ppm.distinct c.fst V x = U at *
        generalize Ppm.total c.fst V x = S at *
        have hU0 : (0 : ℝ) ≤ U := by positivity
        have hA : (U : ℝ) * beta + alpha ≤ S + alpha := by nlinarith
        have hA0 : 0 < (U : ℝ) * beta + alpha := by positivity
        have k1 : ((U : ℝ) * beta + alpha) * pb * (S + alpha) ≤ ((U : ℝ) * beta + alpha) * qb * (S + alpha) := by
          have : ((U : ℝ) * beta + alpha) * pb ≤ ((U : ℝ) * beta + alpha) * qb := by nlinarith
          nlinarith
        have k2 : ((U : ℝ) * beta + alpha) * pb ≤ (S + alpha) * pb := by nlinarith
        have k3 : pb < 1 - beta + beta * qb := by nlinarith
        have k4 : (S + alpha) * pb < (S + alpha) * (1 - beta + beta * qb) := by nlinarith
        nlinarith

/-- Repeated observations. -/
theorem Observes.prob_lt (ha : 0 < alpha) (hb0 : 0 < beta) (hb1 : beta < 1) (hyV : y ≤ V) :
    ∀ (n : Nat) {c c' : Core Arith.xr.C} {ord ord' : Nat → Nat},
    Observes Arith.xr OkR V u c ord (List.replicate (n + 1) (s, (y : Int))) c' ord' →
    WF Arith.xr OkR c.fst ord c.maxOrder V u → Totals c.fst V → s < c.fst.states.length →
    ∀ {p q : ℝ}, Prob c.fst alpha beta V y s p → Prob c'.fst alpha beta V y s q → p < q := by
  intro n
  induction n with
  | zero =>
    intro c c' ord ord' h wf ht hs p q hp hq
    cases h with
    | cons _ _ _ hone hrest =>
      cases hrest
      obtain ⟨o, ho⟩ := wf.origin (laws hb0 hb1) (y := (y : Int)) (by omega) (by omega) s hs
      exact hone.prob_lt wf ht hs hyV ha hb0 hb1 ho ho hs .here hp hq
  | succ n ih =>
    intro c c' ord ord' h wf ht hs p q hp hq
    rw [List.replicate_succ] at h
    cases h with
    | cons _ _ _ hone hrest =>
      obtain ⟨o, ho⟩ := wf.origin (laws hb0 hb1) (y := (y : Int)) (by omega) (by omega) s hs
      have hlen := hone.len
      have ht1 := hone.totals wf hs (by omega) (by omega) ht
      obtain ⟨r, hr, _⟩ := hone.wf.prob ht1 ha hb0 hb1 (s := s) (y := y) (alpha := alpha) (by omega) hyV
      have h1 := hone.prob_lt wf ht hs hyV ha hb0 hb1 ho ho hs .here hp hr
      have h2 := ih hrest hone.wf ht1 (by omega) hr hq
      linarith

end
end Mozolm.Ppm
