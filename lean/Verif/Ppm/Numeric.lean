import Verif.Ppm.NumSpec
import Verif.Ppm.Ops
import Verif.Scores.Numeric
import Mathlib.Algebra.BigOperators.Field
import Mathlib.Tactic.FieldSimp
import Mathlib.Tactic.Linarith
import Mathlib.Tactic.Ring

/-! # The PPM model at exact arithmetic -/

namespace Mozolm.Ppm
open XR
open scoped BigOperators

theorem value_costOf {r : ℝ} (h : 0 ≤ r) : value (costOf r) = r := by
  unfold costOf
  by_cases h0 : r = 0
  · rw [if_pos h0, h0]; rfl
  · rw [if_neg h0]
    simp only [value, neg_neg]
    exact Real.exp_log (lt_of_le_of_ne h (Ne.symm h0))

theorem OkR.value {c : XR} (h : OkR c) : 1 ≤ Ppm.value c ∧ c = costOf (Ppm.value c) := by
  obtain ⟨r, hr, rfl⟩ := h
  rw [value_costOf (by linarith)]; exact ⟨hr, rfl⟩

theorem okR_costOf {r : ℝ} (h : 1 ≤ r) : OkR (costOf r) := ⟨r, h, rfl⟩

theorem nls_one {r : ℝ} (h : 0 ≤ r) : Arith.xr.nls (costOf r) Arith.xr.one = costOf (r + 1) := by
  have : Arith.xr.one = costOf 1 := costOf_one.symm
  rw [this]
  exact negLogSum_costOf h (by norm_num)

/-- Exact arithmetic satisfies what the proofs need, for any `beta` between 0 and 1. -/
theorem laws {beta : ℝ} (h0 : 0 < beta) (h1 : beta < 1) : CountLaws Arith.xr OkR (.fin beta) := by
  refine ⟨⟨1, le_refl _, costOf_one.symm⟩, ?_, ?_, ?_, ?_⟩
  · rintro c ⟨r, hr, rfl⟩
    rw [nls_one (by linarith)]
    exact okR_costOf (by linarith)
  · rintro c ⟨r, hr, rfl⟩
    simp only [decide_eq_false_iff_not]
    rw [costOf_eq_pinf]; linarith
  · rintro c ⟨r, hr, rfl⟩
    simp only [decide_eq_false_iff_not]
    rw [negLog_fin h0.le, le_costOf (by linarith) h0.le]
    linarith
  · simp

/-! ## Sums over the arcs of a state -/

/-- the number at an optional cost -/
noncomputable def num (v : XR → ℝ) : Option XR → ℝ
  | none => 0
  | some w => v w

theorem cnt_eq (f : Fst XR) (s y : Nat) : cnt f s y = num value (count Arith.xr f s y) := by
  unfold cnt num
  cases count Arith.xr f s y <;> rfl

/-- the part of a count that comes from the arcs -/
noncomputable def arcNum (v : XR → ℝ) (arcs : List (Arc XR)) (y : Nat) : ℝ :=
  if y = 0 then 0 else num v ((arcs.find? fun a => a.label == (y : Int)).map Arc.weight)

theorem sum_arcNum (v : XR → ℝ) (V : Nat) : ∀ arcs : List (Arc XR), (arcs.map Arc.label).Nodup →
    (∀ a ∈ arcs, 0 ≤ a.label ∧ a.label ≤ V) →
    ∑ y ∈ Finset.range (V + 1), arcNum v arcs y =
      ((arcs.filter fun a => a.label != 0).map fun a => v a.weight).sum := by
  intro arcs
  induction arcs with
  | nil =>
    intro _ _
    simp [arcNum, num]
  | cons a arcs ih =>
    intro hn hl
    simp only [List.map_cons, List.nodup_cons] at hn
    have hih := ih hn.2 (fun b hb => hl b (List.mem_cons_of_mem _ hb))
    obtain ⟨h0, hV⟩ := hl a (by simp)
    obtain ⟨k, hk⟩ := Int.eq_ofNat_of_zero_le h0
    have hsplit : ∀ y ∈ Finset.range (V + 1), arcNum v (a :: arcs) y =
        (if y = k then (if k = 0 then 0 else v a.weight) else 0) + arcNum v arcs y := by
      intro y _
      unfold arcNum
      by_cases hy0 : y = 0
      · subst hy0
        rw [if_pos rfl, if_pos rfl]
        by_cases hk0 : k = 0
        · subst hk0; simp
        · rw [if_neg (fun e => hk0 e.symm)]; simp
      · rw [if_neg hy0, if_neg hy0]
        by_cases hyk : y = k
        · subst hyk
          have hnone : arcs.find? (fun a => a.label == (y : Int)) = none := by
            rw [List.find?_eq_none]
            intro b hb
            simp only [beq_iff_eq]
            intro e
            exact hn.1 (List.mem_map.mpr ⟨b, hb, by rw [e, hk]⟩)
          rw [if_pos rfl, if_neg hy0, hnone]
          simp [hk, num]
        · rw [if_neg hyk]
          have : (a.label == (y : Int)) = false := by
            simp only [beq_eq_false_iff_ne, ne_eq, hk]; omega
          simp [this]
    rw [Finset.sum_congr rfl hsplit, Finset.sum_add_distrib, hih, Finset.sum_ite_eq']
    have hmem : k ∈ Finset.range (V + 1) := by
      rw [Finset.mem_range]; omega
    rw [if_pos hmem]
    by_cases hk0 : k = 0
    · have : (a.label != 0) = false := by simp [hk, hk0]
      simp [this, hk0]
    · have : (a.label != 0) = true := by simp [hk, hk0]
      simp [this, hk0]

/-- The sum over all symbols of a function of the counts of a state. -/
theorem sum_num (v : XR → ℝ) {V : Nat} {f : Fst XR} {s : Nat} {st : FState XR} (hst : f.states[s]? = some st)
    (hn : (st.arcs.map Arc.label).Nodup) (hl : ∀ a ∈ st.arcs, 0 ≤ a.label ∧ a.label ≤ V) :
    ∑ y ∈ Finset.range (V + 1), num v (count Arith.xr f s (y : Nat)) =
      num v (stateCount Arith.xr st 0) +
      ((st.arcs.filter fun a => a.label != 0).map fun a => v a.weight).sum := by
  have hsplit : ∀ y ∈ Finset.range (V + 1), num v (count Arith.xr f s (y : Nat)) =
      (if y = 0 then num v (stateCount Arith.xr st 0) else 0) + arcNum v st.arcs y := by
    intro y _
    rw [count_of hst]
    unfold arcNum
    by_cases hy0 : y = 0
    · subst hy0
      rw [if_pos rfl, if_pos rfl, add_zero]; rfl
    · rw [if_neg hy0, if_neg hy0, zero_add]
      unfold stateCount
      rw [if_neg (by omega)]
  rw [Finset.sum_congr rfl hsplit, Finset.sum_add_distrib, sum_arcNum v V st.arcs hn hl, Finset.sum_ite_eq']
  rw [if_pos (by simp)]

section Wf
variable {f : Fst XR} {ord : Nat → Nat} {mo : Int} {V u : Nat}

theorem WF.labels (wf : WF Arith.xr OkR f ord mo V u) {s : Nat} {st : FState XR} (hst : f.states[s]? = some st) :
    ∀ a ∈ st.arcs, 0 ≤ a.label ∧ a.label ≤ V := by
  intro a ha
  by_cases h : a.label = 0
  · rw [h]; constructor <;> omega
  · have := ((wf.states s st hst).arcs a ha h).2.2.2; constructor <;> omega

/-- a count that is there is at least one -/
theorem WF.count_ok (wf : WF Arith.xr OkR f ord mo V u) {s : Nat} {y : Int} {w : XR}
    (h : count Arith.xr f s y = some w) : OkR w := by
  unfold count at h
  cases hst : f.states[s]? with
  | none => rw [hst] at h; cases h
  | some st =>
    rw [hst] at h
    simp only [Option.bind_some, stateCount] at h
    have ok := wf.states s st hst
    by_cases hy : y = 0
    · rw [if_pos hy] at h
      by_cases hf : st.final = .pinf
      · rw [hf] at h; simp at h
      · rw [if_neg (by simp [hf])] at h
        injection h with h
        subst h
        by_cases hu : s = u
        · exact (ok.unigram hu).1
        · rcases (ok.node hu).1 with h | h
          · simp only [decide_eq_true_eq] at h; exact absurd h hf
          · exact h
    · rw [if_neg hy, Option.map_eq_some_iff] at h
      obtain ⟨a, ha, rfl⟩ := h
      obtain ⟨h1, h2⟩ := find?_label_eq ha
      exact (ok.arcs a h1 (by rw [h2]; exact hy)).1

theorem WF.cnt_nonneg (wf : WF Arith.xr OkR f ord mo V u) (s y : Nat) : 0 ≤ cnt f s y := by
  rw [cnt_eq]
  cases h : count Arith.xr f s y with
  | none => exact le_refl _
  | some w => have := (wf.count_ok h).value.1; simp only [num]; linarith

theorem WF.total_nonneg (wf : WF Arith.xr OkR f ord mo V u) (s : Nat) : 0 ≤ total f V s :=
  Finset.sum_nonneg fun y _ => wf.cnt_nonneg s y

/-- nothing observed: no count -/
theorem WF.unseen_iff (wf : WF Arith.xr OkR f ord mo V u) (s : Nat) :
    Unseen Arith.xr f s ↔ total f V s = 0 := by
  constructor
  · intro h
    refine Finset.sum_eq_zero fun y _ => ?_
    rw [cnt_eq, h y]; rfl
  · intro h y
    unfold total at h
    rw [Finset.sum_eq_zero_iff_of_nonneg (fun y _ => wf.cnt_nonneg s y)] at h
    cases hc : count Arith.xr f s y with
    | none => rfl
    | some w =>
      exfalso
      have hy : ∃ k : Nat, y = (k : Int) ∧ k ≤ V := by
        unfold count at hc
        cases hst : f.states[s]? with
        | none => rw [hst] at hc; cases hc
        | some st =>
          rw [hst] at hc
          simp only [Option.bind_some, stateCount] at hc
          by_cases hy : y = 0
          · exact ⟨0, hy, by omega⟩
          · rw [if_neg hy, Option.map_eq_some_iff] at hc
            obtain ⟨a, ha, _⟩ := hc
            obtain ⟨h1, h2⟩ := find?_label_eq ha
            have := wf.labels hst a h1
            exact ⟨y.toNat, by omega, by omega⟩
      obtain ⟨k, rfl, hk⟩ := hy
      have := h k (by rw [Finset.mem_range]; omega)
      rw [cnt_eq, hc] at this
      have h1 := (wf.count_ok hc).value.1
      simp only [num] at this
      linarith

theorem WF.sum_count (wf : WF Arith.xr OkR f ord mo V u) (v : XR → ℝ) {s : Nat} {st : FState XR}
    (hst : f.states[s]? = some st) :
    ∑ y ∈ Finset.range (V + 1), num v (count Arith.xr f s (y : Nat)) =
      num v (stateCount Arith.xr st 0) + ((st.arcs.filter fun a => a.label != 0).map fun a => v a.weight).sum :=
  sum_num v hst (wf.states s st hst).nodup (wf.labels hst)

theorem total_eq (f : Fst XR) (V s : Nat) :
    total f V s = ∑ y ∈ Finset.range (V + 1), num value (count Arith.xr f s (y : Nat)) :=
  Finset.sum_congr rfl fun y _ => cnt_eq f s y

theorem distinct_eq (f : Fst XR) (V s : Nat) :
    (distinct f V s : ℝ) = ∑ y ∈ Finset.range (V + 1), num (fun _ => 1) (count Arith.xr f s (y : Nat)) := by
  unfold distinct
  rw [Finset.card_filter]
  push_cast
  refine Finset.sum_congr rfl fun y _ => ?_
  cases count Arith.xr f s (y : Nat) <;> simp [num]

/-- the arcs of a node after its backoff arc -/
theorem WF.node_arcs (wf : WF Arith.xr OkR f ord mo V u) {s : Nat} {st : FState XR} (hst : f.states[s]? = some st)
    {w : XR} {b : Nat} {rest : List (Arc XR)} (h : st.arcs = ⟨0, w, b⟩ :: rest) :
    st.arcs.filter (fun a => a.label != 0) = rest := by
  have hn := (wf.states s st hst).nodup
  rw [h] at hn ⊢
  simp only [List.map_cons, List.nodup_cons] at hn
  simp only [List.filter_cons, bne_self_eq_false, Bool.false_eq_true, if_false]
  rw [List.filter_eq_self]
  intro a ha
  simp only [bne_iff_ne, ne_eq]
  exact fun e => hn.1 (List.mem_map.mpr ⟨a, ha, e⟩)

theorem WF.distinct_node (wf : WF Arith.xr OkR f ord mo V u) {s : Nat} {st : FState XR}
    (hst : f.states[s]? = some st) (hu : s ≠ u) :
    ((if Arith.xr.isInf st.final then (st.arcs.length : Int) - 1 else st.arcs.length : Int) : ℝ) =
      (distinct f V s : ℝ) := by
  obtain ⟨_, w, b, rest, h, _⟩ := (wf.states s st hst).node hu
  rw [distinct_eq, wf.sum_count _ hst, wf.node_arcs hst h, h]
  simp only [List.length_cons, stateCount, if_true, List.map_const', List.sum_replicate, nsmul_eq_mul, mul_one]
  by_cases hf : Arith.xr.isInf st.final = true
  · rw [if_pos hf, if_pos hf]; simp [num]
  · rw [if_neg hf, if_neg hf]; simp [num]; ring

theorem WF.denominator_node (wf : WF Arith.xr OkR f ord mo V u) (ht : Totals f V) {alpha : ℝ} (ha : 0 < alpha)
    {s b : Nat} {st : FState XR} (hst : f.states[s]? = some st) (hb : backoff f s = some b)
    (hpos : 0 < total f V s) : denominatorOf Arith.xr (.fin alpha) st = costOf (total f V s + alpha) := by
  have hu := (wf.of_backoff hb).2.1
  obtain ⟨_, w, b', rest, h, _⟩ := (wf.states s st hst).node hu
  have hw := (ht s b hb).2 hpos
  unfold storedTotal at hw
  rw [hst] at hw
  simp only [Option.bind_some, h, if_true, Option.some.injEq] at hw
  unfold denominatorOf
  rw [h]
  simp only [totalFrom, if_true]
  rw [hw, negLog_fin ha.le, negLogSum_costOf hpos.le ha.le]

theorem WF.gamma_node (wf : WF Arith.xr OkR f ord mo V u) (ht : Totals f V) {alpha beta : ℝ} (ha : 0 < alpha)
    (hb0 : 0 < beta) {s b : Nat} {st : FState XR} (hst : f.states[s]? = some st) (hb : backoff f s = some b)
    (hpos : 0 < total f V s) :
    gammaOf Arith.xr (.fin alpha) (.fin beta) (denominatorOf Arith.xr (.fin alpha) st) st =
      costOf ((distinct f V s * beta + alpha) / (total f V s + alpha)) := by
  have hu := (wf.of_backoff hb).2.1
  rw [wf.denominator_node ht ha hst hb hpos]
  have hn := wf.distinct_node hst hu
  show XR.sub (negLogSum (XR.add (negLog (.fin ((if Arith.xr.isInf st.final then (st.arcs.length : Int) - 1
    else st.arcs.length : Int) : ℝ))) (negLog (.fin beta))) (negLog (.fin alpha))) _ = _
  rw [hn]
  rw [negLog_fin (by positivity), negLog_fin hb0.le, negLog_fin ha.le, add_costOf (by positivity) hb0.le,
    negLogSum_costOf (by positivity) ha.le, sub_costOf (by positivity) (by positivity)]

theorem totalFrom_costOf : ∀ (arcs : List (Arc XR)) (acc : ℝ), 0 ≤ acc → (∀ a ∈ arcs, a.label ≠ 0 ∧ OkR a.weight) →
    totalFrom Arith.xr (costOf acc) arcs = costOf (acc + (arcs.map fun a => value a.weight).sum) := by
  intro arcs
  induction arcs with
  | nil => intro acc _ _; simp [totalFrom]
  | cons a arcs ih =>
    intro acc hacc h
    obtain ⟨h1, h2⟩ := h a (by simp)
    have hv := h2.value
    simp only [totalFrom]
    rw [if_neg h1]
    rw [hv.2]
    rw [negLogSum_costOf hacc (by linarith [hv.1]), ih _ (by linarith [hv.1]) (fun b hb => h b (List.mem_cons_of_mem _ hb))]
    simp only [List.map_cons, List.sum_cons]
    congr 1; ring

theorem WF.total_u_pos (wf : WF Arith.xr OkR f ord mo V u) : 0 < total f V u := by
  rcases (wf.total_nonneg u).eq_or_lt with h | h
  · exfalso
    have := (wf.unseen_iff u).mpr h.symm 0
    have h2 := wf.count_u (laws (beta := 1/2) (by norm_num) (by norm_num)) (y := 0) (le_refl _) (by omega)
    rw [this] at h2; cases h2
  · exact h

theorem WF.denominator_u (wf : WF Arith.xr OkR f ord mo V u) {alpha : ℝ} (ha : 0 < alpha)
    {st : FState XR} (hst : f.states[u]? = some st) :
    denominatorOf Arith.xr (.fin alpha) st = costOf (total f V u + alpha) := by
  obtain ⟨h1, h2, h3, h4⟩ := (wf.states u st hst).unigram rfl
  have hv := h1.value
  have hfin : Arith.xr.isInf st.final = false :=
    (laws (beta := 1/2) (by norm_num) (by norm_num)).finite _ h1
  have hfilter : st.arcs.filter (fun a => a.label != 0) = st.arcs := by
    rw [List.filter_eq_self]
    intro a ha'; simp only [bne_iff_ne, ne_eq]; exact h3 a ha'
  unfold denominatorOf
  rw [hv.2, totalFrom_costOf _ _ (by linarith [hv.1]) (fun a ha' => ⟨h3 a ha', ((wf.states u st hst).arcs a ha' (h3 a ha')).1⟩)]
  have ht : total f V u = value st.final + (st.arcs.map fun a => value a.weight).sum := by
    rw [total_eq, wf.sum_count _ hst, hfilter]
    simp only [stateCount, if_true]
    rw [if_neg (by simp only [decide_eq_false_iff_not] at hfin; simp [hfin])]
    rfl
  rw [← ht]
  show negLogSum _ (negLog (.fin alpha)) = _
  rw [negLog_fin ha.le, negLogSum_costOf (wf.total_nonneg u) ha.le]

end Wf

theorem sum_range_list (g : ℕ → ℝ) : ∀ n, ((List.range n).map g).sum = ∑ i ∈ Finset.range n, g i := by
  intro n
  induction n with
  | zero => simp
  | succ n ih => rw [List.range_succ, List.map_append, List.sum_append, ih, Finset.sum_range_succ]; simp

/-- renormalising costs of numbers with a positive sum -/
theorem softmax_fun {q : ℕ → ℝ} {V : Nat} (h0 : ∀ y ≤ V, 0 ≤ q y) (hs : 0 < ∑ y ∈ Finset.range (V + 1), q y)
    {raw : List XR} {ws : List XR} (hl : raw.length = V + 1) (hr : ∀ y : Nat, y < V + 1 → raw[y]? = some (costOf (q y)))
    (h : Scores.softmaxRenormalize Arith.xr raw = .ok ws) :
    ws = (List.range (V + 1)).map fun y => costOf (q y / ∑ y ∈ Finset.range (V + 1), q y) := by
  have hraw : raw = ((List.range (V + 1)).map q).map costOf := by
    apply List.ext_getElem?
    intro i
    by_cases hi : i < V + 1
    · rw [hr i hi]; simp [hi]
    · rw [List.getElem?_eq_none (by omega), List.getElem?_eq_none (by simp; omega)]
  rw [hraw, Scores.softmax_costOf ?_ (by rw [sum_range_list]; exact hs)] at h
  · injection h with h
    rw [← h, sum_range_list, List.map_map]; rfl
  · intro p hp
    obtain ⟨y, hy, rfl⟩ := List.mem_map.mp hp
    exact h0 y (by have := List.mem_range.mp hy; omega)

/-- The vectors of a state hold the documented distribution. -/
structure Dist (f : Fst XR) (alpha beta : ℝ) (V s : Nat) (d : Data XR) (p : ℕ → ℝ) (N : ℝ) : Prop where
  costs : d.costs = (List.range (V + 1)).map fun y => costOf (p y)
  prob : ∀ y ≤ V, Prob f alpha beta V y s (p y)
  pos : ∀ y ≤ V, 0 < p y
  sum : ∑ y ∈ Finset.range (V + 1), p y = 1
  norm : d.norm = costOf N
  isNorm : Norm f alpha V s N
  norm_pos : 0 < N

theorem ideal_dist {f : Fst XR} {ord : Nat → Nat} {mo : Int} {V u : Nat} (wf : WF Arith.xr OkR f ord mo V u)
    (ht : Totals f V) {alpha beta : ℝ} (ha : 0 < alpha) (hb0 : 0 < beta) (hb1 : beta < 1) :
    ∀ s, s < f.states.length → ∀ d, Ideal Arith.xr f (.fin alpha) (.fin beta) s d →
      ∃ p N, Dist f alpha beta V s d p N := by
  have L := laws hb0 hb1
  have key : ∀ k s, ord s = k → s < f.states.length → ∀ d, Ideal Arith.xr f (.fin alpha) (.fin beta) s d →
      ∃ p N, Dist f alpha beta V s d p N := by
    intro k
    induction k with
    | zero =>
      intro s hk hs d hd
      have hu : s = u := by
        apply Classical.byContradiction
        intro hu
        obtain ⟨b, _, _, ho⟩ := wf.backoff_node hs hu
        omega
      subst hu
      obtain ⟨st, bd, hst, _, h1 | ⟨h1, _⟩⟩ := hd.cases' L wf hs
      · exact absurd rfl h1.1
      · obtain ⟨raw, r1, r2, r3⟩ := h1.costs
        have hbo := wf.backoff_u
        have hS := wf.total_u_pos
        have hraw : ∀ y : Nat, y < V + 1 → raw[y]? = some (costOf (cnt f s y / (total f V s + alpha))) := by
          intro y hy
          rw [r3 y hy]
          have hc := wf.count_u L (y := (y : Int)) (by omega) (by omega)
          obtain ⟨w, hw⟩ := Option.isSome_iff_exists.mp hc
          rw [hw]
          simp only
          have hlen : (rawInit Arith.xr (.fin alpha) (.fin beta) st (backoff f s) bd)[y]? = some (.fin 0) := by
            rw [hbo]
            have := ((wf.states s st hst).unigram rfl).2.1
            simp only [rawInit]
            rw [List.getElem?_replicate, if_pos (by omega)]
          rw [hlen, hbo]
          have hv := (wf.count_ok hw).value
          have hcw : cnt f s y = value w := by rw [cnt_eq, hw]; rfl
          simp only [Option.map_some, idOf, blend]
          rw [if_pos (by simp), wf.denominator_u ha hst, hv.2, sub_costOf (by linarith [hv.1]) (by positivity),
            hcw]
        have hsum : ∑ y ∈ Finset.range (V + 1), cnt f s y / (total f V s + alpha) =
            total f V s / (total f V s + alpha) := by
          rw [← Finset.sum_div]; rfl
        have hspos : 0 < ∑ y ∈ Finset.range (V + 1), cnt f s y / (total f V s + alpha) := by
          rw [hsum]; positivity
        have hws := softmax_fun (fun y _ => div_nonneg (wf.cnt_nonneg s y) (by positivity)) hspos r2 hraw r1
        have hq : ∀ y, cnt f s y / (total f V s + alpha) /
            (∑ y ∈ Finset.range (V + 1), cnt f s y / (total f V s + alpha)) = cnt f s y / total f V s := by
          intro y
          rw [hsum]
          field_simp
        refine ⟨fun y => cnt f s y / total f V s, total f V s + alpha, ?_, ?_, ?_, ?_, ?_, .unigram hbo, by positivity⟩
        · rw [hws]
          exact List.map_congr_left fun y _ => by rw [hq]
        · intro y _; exact .unigram hbo
        · intro y hy
          have hc := wf.count_u L (y := (y : Int)) (by omega) (by omega)
          obtain ⟨w, hw⟩ := Option.isSome_iff_exists.mp hc
          have hv := (wf.count_ok hw).value
          have hcw : cnt f s y = value w := by rw [cnt_eq, hw]; rfl
          show 0 < cnt f s y / total f V s
          rw [hcw]
          exact div_pos (by linarith [hv.1]) hS
        · rw [← Finset.sum_div]
          exact div_self hS.ne'
        · rw [h1.norm, wf.denominator_u ha hst]
    | succ k ih =>
      intro s hk hs d hd
      have hu : s ≠ u := by intro e; rw [e, wf.ord_u] at hk; cases hk
      obtain ⟨b, hb, hbl, ho⟩ := wf.backoff_node hs hu
      obtain ⟨st, bd, hst, hbd, h1 | ⟨h1, y0, hy0, hc0⟩⟩ := hd.cases' L wf hs
      · obtain ⟨p, N, hp⟩ := ih b (by omega) hbl bd (hbd b hb).1
        have h0 := (wf.unseen_iff s).mp h1.2.1
        rw [h1.2.2]
        exact ⟨p, N, hp.costs, fun y hy => .unseen hb h0 (hp.prob y hy), hp.pos, hp.sum, hp.norm,
          .unseen hb h0 hp.isNorm, hp.norm_pos⟩
      · obtain ⟨p, N, hp⟩ := ih b (by omega) hbl bd (hbd b hb).1
        have hS : 0 < total f V s := by
          rcases (wf.total_nonneg s).eq_or_lt with h | h
          · have := (wf.unseen_iff s).mpr h.symm y0
            rw [this] at hc0; cases hc0
          · exact h
        obtain ⟨raw, r1, r2, r3⟩ := h1.costs
        have hgam := wf.gamma_node ht ha hb0 hst hb hS
        have hden := wf.denominator_node ht ha hst hb hS
        let q : ℕ → ℝ := fun y =>
          (max (cnt f s y - beta) 0 + (distinct f V s * beta + alpha) * p y) / (total f V s + alpha)
        have hq0 : ∀ y ≤ V, 0 < q y := by
          intro y hy
          have := hp.pos y hy
          have h2 : 0 ≤ max (cnt f s y - beta) 0 := le_max_right _ _
          have h3 : 0 < (distinct f V s * beta + alpha) * p y := by positivity
          exact div_pos (by linarith) (by linarith)
        have hCsum : ∑ y ∈ Finset.range (V + 1), max (cnt f s y - beta) 0 = total f V s - distinct f V s * beta := by
          rw [distinct_eq, Finset.sum_mul]
          unfold total
          rw [← Finset.sum_sub_distrib]
          refine Finset.sum_congr rfl fun y _ => ?_
          rw [cnt_eq]
          cases hc : count Arith.xr f s (y : Nat) with
          | none =>
            simp only [num]
            rw [max_eq_right (by linarith)]; ring
          | some w =>
            have hv := (wf.count_ok hc).value
            simp only [num]
            rw [max_eq_left (by linarith [hv.1])]; ring
        have hqsum : ∑ y ∈ Finset.range (V + 1), q y = 1 := by
          simp only [q]
          rw [← Finset.sum_div, Finset.sum_add_distrib, hCsum, ← Finset.mul_sum, hp.sum]
          rw [div_eq_one_iff_eq (by positivity)]; ring
        have hraw : ∀ y : Nat, y < V + 1 → raw[y]? = some (costOf (q y)) := by
          intro y hy
          rw [r3 y hy]
          have hinit : (rawInit Arith.xr (.fin alpha) (.fin beta) st (backoff f s) bd)[y]? =
              some (costOf (p y * ((distinct f V s * beta + alpha) / (total f V s + alpha)))) := by
            rw [hb]
            simp only [rawInit]
            rw [hgam, hp.costs, List.map_map, List.getElem?_map, List.getElem?_range hy]
            simp only [Option.map_some, Function.comp_apply]
            rw [add_costOf (hp.pos y (by omega)).le (by positivity)]
          rw [hinit, hb]
          have hpy := (hp.pos y (by omega)).le
          cases hc : count Arith.xr f s (y : Nat) with
          | none =>
            have hcw : cnt f s y = 0 := by rw [cnt_eq, hc]; rfl
            simp only [q, hcw]
            rw [max_eq_right (by linarith)]
            congr 2
            ring
          | some w =>
            have hv := (wf.count_ok hc).value
            have hcw : cnt f s y = value w := by rw [cnt_eq, hc]; rfl
            have hdec : decide (idOf (some b) < 0) = false := by
              rw [decide_eq_false_iff_not]; show ¬ ((b : Int) < 0); omega
            rw [hdec]
            simp only [Option.map_some, blend]
            rw [if_neg (by simp), hden, negLog_fin hb0.le]
            have e1 : negLogDiff w (costOf beta) = costOf (value w - beta) := by
              conv_lhs => rw [hv.2]
              exact negLogDiff_costOf hb0.le (by linarith [hv.1])
            rw [e1, sub_costOf (by linarith [hv.1]) (by positivity),
              negLogSum_costOf (by positivity) (div_nonneg (by linarith [hv.1]) (by positivity))]
            simp only [q, hcw]
            rw [max_eq_left (by linarith [hv.1])]
            congr 2
            ring
        have hws := softmax_fun (fun y hy => (hq0 y hy).le) (by rw [hqsum]; norm_num) r2 hraw r1
        refine ⟨q, total f V s + alpha, ?_, ?_, hq0, hqsum, ?_, .seen hb hS, by positivity⟩
        · rw [hws]
          exact List.map_congr_left fun y _ => by rw [hqsum, div_one]
        · intro y hy; exact .seen hb hS (hp.prob y hy)
        · rw [h1.norm, hden]
  exact fun s hs => key _ s rfl hs

end Mozolm.Ppm
