import Verif.Hub.Numeric
import Verif.Hub.Sorted
import Verif.Props.Hub
import Mathlib.Data.List.Basic

/-!
# Property theorems about mixing (C09–C12), at exact real arithmetic

`XR.costOf p` is the negative-log cost of the real number `p ≥ 0`.
-/

namespace Mozolm.Hub
open XR Scores
variable {σ : Type} {env : Env Arith.xr σ} {models : List σ} {cfg : HubConfig XR}
  {calls : List Call} {h h' : Hub Arith.xr σ}

/-- C09: with two or more finite configured weights, the hub's mixture weights are at all times the
costs of `exp(-w_k) / Σ exp(-w_j)`; these sum to one. -/
theorem C09_weights (hf : env.Fair) (hr : Reach env models cfg calls h)
    (hmix : cfg.mixture = .interpolation) {ws : List ℝ} (hws : cfg.weights = ws.map XR.fin)
    (h2 : 2 ≤ ws.length) :
    h.weights = ws.map (fun w => costOf (Real.exp (-w) / (ws.map fun v => Real.exp (-v)).sum)) ∧
    (ws.map fun w => Real.exp (-w) / (ws.map fun v => Real.exp (-v)).sum).sum = 1 := by
  have g := reach_good hf hr
  have hfin : ws.map XR.fin = (ws.map fun w => Real.exp (-w)).map costOf := by
    rw [List.map_map]
    refine List.map_congr_left fun w _ => ?_
    simp [costOf, (Real.exp_pos _).ne']
  have hpos : ∀ p ∈ ws.map fun w => Real.exp (-w), 0 ≤ p := by
    intro p hp
    obtain ⟨w, _, rfl⟩ := List.mem_map.1 hp
    exact (Real.exp_pos _).le
  have hsum : 0 < (ws.map fun w => Real.exp (-w)).sum := by
    cases ws with
    | nil => simp at h2
    | cons w ws =>
      simp only [List.map_cons, List.sum_cons]
      have h1 := Real.exp_pos (-w)
      have h3 := sum_nonneg' (l := ws.map fun w => Real.exp (-w)) fun p hp =>
        hpos p (by simp only [List.map_cons, List.mem_cons]; exact .inr hp)
      linarith
  have hw : h.weights = cfgWeights cfg := g.const.weights
  refine ⟨?_, ?_⟩
  · rw [hw]
    unfold cfgWeights
    rw [if_pos ⟨hmix, by rw [hws]; simpa using h2⟩, hws, hfin, normalizeWeights_costOf hpos hsum,
      List.map_map]
    rfl
  · have := sum_map_div (ws.map fun w => Real.exp (-w)) (ws.map fun w => Real.exp (-w)).sum
    rw [List.map_map, div_self hsum.ne'] at this
    exact this

theorem foldl_add_costOf {l : List ℝ} (hl : ∀ p ∈ l, 0 ≤ p) {a : ℝ} (ha : 0 ≤ a) :
    (l.map costOf).foldl Arith.xr.times (costOf a) = costOf (a * l.prod) ∧ 0 ≤ l.prod := by
  induction l generalizing a with
  | nil => simp
  | cons p l ih =>
    have hp : 0 ≤ p := hl p (by simp)
    have ih' := ih (fun q hq => hl q (by simp [hq])) (a := a * p) (by positivity)
    rw [List.map_cons, List.foldl_cons, List.prod_cons]
    have : Arith.xr.times (costOf a) (costOf p) = costOf (a * p) := add_costOf ha hp
    rw [this, ih'.1, mul_assoc]
    exact ⟨rfl, mul_nonneg hp ih'.2⟩

theorem rowSum_costOf {l : List ℝ} (hl : ∀ p ∈ l, 0 ≤ p) :
    rowSum Arith.xr (l.map costOf) = costOf l.prod ∧ 0 ≤ l.prod := by
  rcases List.eq_nil_or_concat l with rfl | ⟨l', a, rfl⟩
  · simp [rowSum, costOf_one]
  · have hl' : ∀ p ∈ l', 0 ≤ p := fun p hp => hl p (by simp [hp])
    have ha : 0 ≤ a := hl a (by simp)
    have := foldl_add_costOf hl' ha
    rw [List.concat_eq_append] at *
    simp only [rowSum, List.map_append, List.map_cons, List.map_nil, List.dropLast_concat,
      List.getLast?_append, List.getLast?_singleton, Option.some_or, Option.getD_some]
    rw [List.prod_append, List.prod_singleton, mul_comm]
    exact ⟨this.1, mul_nonneg ha this.2⟩

theorem lastN_padded (j : Nat) (ps : List ℝ) :
    (lastN j (List.replicate j 1 ++ ps)).prod = (lastN j ps).prod := by
  unfold lastN
  rw [List.length_append, List.length_replicate, show j + ps.length - j = ps.length by omega,
    List.drop_append, List.drop_replicate, List.length_replicate]
  simp

theorem pathCosts_map {C : Type} (v : Int → Int → Int) (pr : Int → Int → ℝ) (f : ℝ → C) (s : Int)
    (cs : List Int) :
    pathCosts v (fun x c => f (pr x c)) s cs = (pathCosts v pr s cs).map f := by
  induction cs generalizing s with
  | nil => rfl
  | cons c cs ih => simp [pathCosts, ih]

theorem lastN_map {α β : Type} (f : α → β) (n : Nat) (l : List α) :
    lastN n (l.map f) = (lastN n l).map f := by
  simp [lastN, List.map_drop]

theorem pathCosts_nonneg {v : Int → Int → Int} {pr : Int → Int → ℝ} (hp : ∀ x c, 0 ≤ pr x c)
    (s : Int) (cs : List Int) : ∀ p ∈ pathCosts v pr s cs, 0 ≤ p := by
  induction cs generalizing s with
  | nil => simp [pathCosts]
  | cons c cs ih =>
    intro p hm
    simp only [pathCosts, List.mem_cons] at hm
    rcases hm with rfl | hm
    · exact hp _ _
    · exact ih _ p hm

/-- The numerator of the documented Bayesian weight of component `m`: its configured weight times
the product of the probabilities it gave to the last `j` symbols of the context. -/
noncomputable def bayesScore (view : σ → Int → Int → Int) (pr : σ → Int → Int → ℝ)
    (start : σ → Int) (j : Nat) (cs : List Int) (wm : ℝ × σ) : ℝ :=
  Real.exp (-wm.1) * (lastN j (pathCosts (view wm.2) (pr wm.2) (start wm.2) cs)).prod

/-- C10: with static components whose symbol scores are the costs of probabilities `pr`, and Bayesian
history length `j`, the mixture weights at the state reached for a context are the costs of
`w_k * Π (probabilities of the last j symbols) / Σ`, and sum to one. -/
theorem C10_bayesian_weights {view : σ → Int → Int → Int} {pr : σ → Int → Int → ℝ}
    (hf : env.Fair) (hs : env.toLMOps.Static view (fun m x c => costOf (pr m x c)))
    (hpr : ∀ m x c, 0 ≤ pr m x c) (hr : Reach env models cfg calls h)
    (hmix : cfg.mixture = .interpolation) {ws : List ℝ} (hws : cfg.weights = ws.map XR.fin)
    (h2 : 2 ≤ ws.length) (hm : ws.length = models.length) (hj : 0 < cfg.bayesianHistoryLength)
    {cs : List Int} (hcs : ∀ c ∈ cs, 0 ≤ c) {r : Int} (he : contextState env h cs (-1) = .ok (r, h'))
    (hg : h'.selfRecycled = false)
    (hpos : 0 < ((ws.zip models).map
      (bayesScore view pr env.start cfg.bayesianHistoryLength.toNat cs)).sum) :
    getMixtureWeights h' r true = .ok ((ws.zip models).map fun wm => costOf
      (bayesScore view pr env.start cfg.bayesianHistoryLength.toNat cs wm /
        ((ws.zip models).map
          (bayesScore view pr env.start cfg.bayesianHistoryLength.toNat cs)).sum)) ∧
    ((ws.zip models).map fun wm =>
      bayesScore view pr env.start cfg.bayesianHistoryLength.toNat cs wm / ((ws.zip models).map
        (bayesScore view pr env.start cfg.bayesianHistoryLength.toNat cs)).sum).sum = 1 := by
  have g := reach_good hf hr
  obtain ⟨r', h'', e, g2, _⟩ := contextLoop_ok hf g.inv (if (-1 : Int) < 0 then 0 else -1) cs
  have he2 : contextLoop env h (if (-1 : Int) < 0 then 0 else -1) cs = .ok (r, h') := he
  rw [he2] at e; cases e
  have hw2 : 2 ≤ cfg.weights.length := by rw [hws]; simpa using h2
  obtain ⟨rst, hr0, hst, hC⟩ := C13_history_is_last_costs hf hs hr hmix hw2 hj hcs he hg
  have hr' : Reach env models cfg (calls ++ [.context cs (-1)]) h' := by
    obtain ⟨h0, e0, e1⟩ := hr
    refine ⟨h0, e0, ?_⟩
    have : ∀ (l : List Call) (a : Hub Arith.xr σ), run env a l = .ok h →
        run env a (l ++ [.context cs (-1)]) = .ok h' := by
      intro l
      induction l with
      | nil =>
        intro a ha
        simp only [run, Except.ok.injEq] at ha
        subst ha
        simp [run, step, he]
      | cons c l ih =>
        intro a ha
        simp only [run] at ha
        obtain ⟨b, e1, e2⟩ := bind_ok.1 ha
        simp only [List.cons_append, run, e1, ok_bind]
        exact ih b e2
    exact this _ _ e1
  obtain ⟨hwt, _⟩ := C09_weights hf hr' hmix hws h2
  have hsumpos : 0 < (ws.map fun v => Real.exp (-v)).sum := by
    cases ws with
    | nil => simp at h2
    | cons w ws =>
      simp only [List.map_cons, List.sum_cons]
      have h1 := Real.exp_pos (-w)
      have h3 := sum_nonneg' (l := ws.map fun w => Real.exp (-w)) fun p hp => by
        obtain ⟨w, _, rfl⟩ := List.mem_map.1 hp
        exact (Real.exp_pos _).le
      linarith
  set j := cfg.bayesianHistoryLength.toNat with hjdef
  have hjl : 0 < j := by omega
  -- the sums are the costs of the products
  have hsum : ∀ (k : Nat) (m : σ), models[k]? = some m → rst.histSum[k]? =
      some (costOf (lastN j (pathCosts (view m) (pr m) (env.start m) cs)).prod) := by
    intro k m hk
    obtain ⟨c1, c2, c3⟩ := hC k m hk
    by_cases hne : cs = []
    · rw [c3 hne, hne]
      simp [pathCosts, lastN, costOf_one]
    · rw [c2 hne, c1]
      have hmap : (List.replicate j Arith.xr.one ++ pathCosts (view m)
          (fun x c => costOf (pr m x c)) (env.start m) cs) =
          (List.replicate j 1 ++ pathCosts (view m) (pr m) (env.start m) cs).map costOf := by
        rw [List.map_append, List.map_replicate, costOf_one, pathCosts_map]
      rw [Option.map_some, hmap, lastN_map, (rowSum_costOf _).1, lastN_padded]
      intro p hp
      have hp := List.mem_of_mem_drop hp
      rcases List.mem_append.1 hp with hp | hp
      · rw [List.eq_of_mem_replicate hp]; norm_num
      · exact pathCosts_nonneg (hpr m) _ _ p hp
  have hml : h'.models.length = models.length := by
    rw [← g2.const.models.length_eq, ← g.const.models.length_eq]; rfl
  have hhl : h'.hlen = j := by
    rw [g2.const.hlen, g.const.hlen]
    show cfgHlen (A := Arith.xr) cfg = _
    unfold cfgHlen
    rw [if_pos ⟨hmix, hw2⟩]
  have hsl : rst.histSum.length = models.length := by
    have := (g2.inv.st _ rst hst).hist (by omega)
    rw [this.2.1, hml]
  have hval : h'.valid r = true := by
    have := lt_of_getElem?_eq_some hst
    simp only [Hub.valid, Bool.and_eq_true, decide_eq_true_eq]; omega
  -- the sum of the unnormalised scores
  let sc : ℝ × σ → ℝ := bayesScore view pr env.start j cs
  have hscpos : ∀ wm, 0 ≤ sc wm := by
    intro wm
    refine mul_nonneg (Real.exp_pos _).le ?_
    refine List.prod_nonneg fun p hp => ?_
    exact pathCosts_nonneg (hpr wm.2) _ _ p (List.mem_of_mem_drop hp)
  have hz : List.zipWith Arith.xr.times h'.weights rst.histSum =
      ((ws.zip models).map fun wm => sc wm / (ws.map fun v => Real.exp (-v)).sum).map costOf := by
    refine List.ext_getElem? fun k => ?_
    rw [List.getElem?_zipWith, hwt]
    simp only [List.getElem?_map]
    by_cases hk : k < models.length
    · obtain ⟨m, hm'⟩ := exists_getElem?_of_lt hk
      obtain ⟨w, hw'⟩ := exists_getElem?_of_lt (l := ws) (i := k) (by omega)
      have hzip : (ws.zip models)[k]? = some (w, m) := by
        rw [List.getElem?_zip_eq_some]; exact ⟨hw', hm'⟩
      rw [hsum k m hm', hw', hzip]
      simp only [Option.map_some]
      have hpp : 0 ≤ (lastN j (pathCosts (view m) (pr m) (env.start m) cs)).prod :=
        List.prod_nonneg fun p hp =>
          pathCosts_nonneg (hpr m) _ _ p (List.mem_of_mem_drop hp)
      have : Arith.xr.times (costOf (Real.exp (-w) / (ws.map fun v => Real.exp (-v)).sum))
          (costOf (lastN j (pathCosts (view m) (pr m) (env.start m) cs)).prod) =
          costOf (sc (w, m) / (ws.map fun v => Real.exp (-v)).sum) := by
        refine (add_costOf (div_nonneg (Real.exp_pos _).le hsumpos.le) hpp).trans ?_
        congr 1
        simp only [sc, bayesScore]
        ring
      exact congrArg some this
    · have h1 : (ws.zip models)[k]? = none := List.getElem?_eq_none (by simp; omega)
      have h3 : ws[k]? = none := List.getElem?_eq_none (by omega)
      rw [h1, h3]
      rfl
  have hps : ∀ p ∈ (ws.zip models).map fun wm => sc wm / (ws.map fun v => Real.exp (-v)).sum,
      0 ≤ p := by
    intro p hp
    obtain ⟨wm, _, rfl⟩ := List.mem_map.1 hp
    exact div_nonneg (hscpos wm) hsumpos.le
  have hS : ((ws.zip models).map fun wm => sc wm / (ws.map fun v => Real.exp (-v)).sum).sum =
      ((ws.zip models).map sc).sum / (ws.map fun v => Real.exp (-v)).sum := by
    have := sum_map_div ((ws.zip models).map sc) (ws.map fun v => Real.exp (-v)).sum
    rw [List.map_map] at this
    exact this
  have hpos' : 0 < ((ws.zip models).map sc).sum := hpos
  refine ⟨?_, ?_⟩
  · unfold getMixtureWeights
    rw [if_neg (by simp [hval, hhl]; omega), hst]
    simp only [bayesianWeights]
    rw [if_pos (by rw [hwt, hsl, ← hm]; simp), hz,
      normalizeWeights_costOf hps (by rw [hS]; positivity), hS, List.map_map]
    congr 1
    refine List.map_congr_left fun wm _ => ?_
    simp only [Function.comp]
    rw [div_div_div_cancel_right₀ hsumpos.ne']
  · have := sum_map_div ((ws.zip models).map sc) ((ws.zip models).map sc).sum
    rw [List.map_map, div_self hpos'.ne'] at this
    exact this

/-- C12 (and C11): at an existing state, if component `k` answers with the entries of `rs[k]` and the
mixture weights in force are (the costs of) those in `rs`, the hub's answer lists every symbol some
component offered exactly once, in increasing byte order, and gives each symbol the weighted average
of the component probabilities, divided by the total over all symbols. -/
theorem C12_weighted_average (hf : env.Fair) (h : Hub Arith.xr σ) {s : Int}
    (hv : h.valid s = true) (hw : 2 ≤ h.weights.length) {st : HubState XR}
    (hst : h.states[s.toNat]? = some st) {rs : List Share}
    (hnn : ∀ r ∈ rs, 0 ≤ r.1 ∧ ∀ e ∈ r.2, 0 ≤ e.2)
    (hws : getMixtureWeights h s true = .ok (rs.map fun r => costOf r.1))
    (hans : Answers env st 0 h.models rs) (hpos : 0 < total rs) :
    ∃ res h', extractLMScores env h s = .ok (some res, h') ∧
      res.symbols.Pairwise byteLt ∧
      (∀ sym, sym ∈ res.symbols ↔ ∃ r ∈ rs, ∃ e ∈ r.2, e.1 = sym) ∧
      res.probs = res.symbols.map fun sym => XR.fin (mass rs sym / total rs) := by
  have hrep0 : Rep [] [] (fun _ => (0 : ℝ)) := ⟨rfl, List.nodup_nil, fun _ => le_refl _, fun _ _ => rfl⟩
  obtain ⟨acc, nrm, ms, ks, e1, e2, e3⟩ :=
    extractLoop_rep (i := 0) (nrm := Arith.xr.ofInt 0) hnn hans hrep0
  have hmass : ∀ k, 0 + mass rs k = mass rs k := fun k => zero_add _
  simp only [hmass] at e2
  refine ⟨extractMixture env acc nrm, { h with models := ms }, ?_, ?_⟩
  · unfold extractLMScores
    rw [if_neg (by simp [hv]), hst]
    simp only
    rw [if_neg (by omega), hws]
    simp only [ok_bind]
    rw [e1]
    rfl
  have hperm : (env.orderV acc).Perm acc := hf.2 acc
  have hkeys : acc.map Prod.fst = ks := by
    rw [e2.eq, List.map_map]
    exact List.map_id' _
  have hkn : ((env.orderV acc).map Prod.fst).Nodup := by
    rw [(hperm.map _).nodup_iff, hkeys]; exact e2.nodup
  have hmem : ∀ e ∈ env.orderV acc, e.2 = costOf (mass rs e.1) := by
    intro e he
    have := hperm.mem_iff.1 he
    rw [e2.eq] at this
    obtain ⟨k, _, rfl⟩ := List.mem_map.1 this
    rfl
  have htot : (((env.orderV acc).map Prod.fst).map (mass rs)).sum = total rs := by
    rw [((hperm.map Prod.fst).map _).sum_eq, hkeys]
    refine sum_mass e2.nodup fun r hr e he => ?_
    exact (e3 e.1).2 (.inr ⟨r, hr, List.mem_map_of_mem he⟩)
  have hsorted := sortValues_sorted (env.orderV acc) hkn
  have hsp := sortValues_perm (env.orderV acc)
  have hsym : (extractMixture env acc nrm).symbols = (sortValues (env.orderV acc)).map Prod.fst := by
    unfold extractMixture
    cases hvs : env.orderV acc with
    | nil => simp [sortValues]
    | cons v rest => rfl
  have hprob : (extractMixture env acc nrm).probs =
      (sortValues (env.orderV acc)).map fun e => XR.fin (mass rs e.1 / total rs) := by
    unfold extractMixture
    cases hvs : env.orderV acc with
    | nil => simp [sortValues]
    | cons v rest =>
      simp only
      rw [hvs] at hmem htot hsp
      have hsum : negLogSumFrom Arith.xr v.2 (rest.map Prod.snd) = costOf (total rs) := by
        have h1 : rest.map Prod.snd = (rest.map fun e => mass rs e.1).map costOf := by
          rw [List.map_map]
          exact List.map_congr_left fun e he => hmem e (by simp [he])
        rw [hmem v (by simp), h1, negLogSumFrom_costOf (e2.nonneg _)
          (by
            intro q hq
            obtain ⟨e, _, rfl⟩ := List.mem_map.1 hq
            exact e2.nonneg _), ← htot]
        simp [List.map_map, Function.comp_def]
      rw [hsum]
      refine List.map_congr_left fun e he => ?_
      rw [hmem e (hsp.mem_iff.1 he), sub_costOf (e2.nonneg _) hpos,
        expNeg_costOf (div_nonneg (e2.nonneg _) hpos.le)]
  refine ⟨?_, ?_, ?_⟩
  · rw [hsym, List.pairwise_map]; exact hsorted
  · intro sym
    rw [hsym, (hsp.map Prod.fst).mem_iff, (hperm.map Prod.fst).mem_iff, hkeys, e3]
    simp
  · rw [hprob, hsym, List.map_map]
    rfl

/-- C11: under the same hypotheses the returned probabilities are non-negative and sum to one. -/
theorem C11_distribution (hf : env.Fair) (h : Hub Arith.xr σ) {s : Int}
    (hv : h.valid s = true) (hw : 2 ≤ h.weights.length) {st : HubState XR}
    (hst : h.states[s.toNat]? = some st) {rs : List Share}
    (hnn : ∀ r ∈ rs, 0 ≤ r.1 ∧ ∀ e ∈ r.2, 0 ≤ e.2)
    (hws : getMixtureWeights h s true = .ok (rs.map fun r => costOf r.1))
    (hans : Answers env st 0 h.models rs) (hpos : 0 < total rs) :
    ∃ (res : LMScores XR) (h' : Hub Arith.xr σ) (ps : List ℝ),
      extractLMScores env h s = .ok (some res, h') ∧ res.probs = ps.map XR.fin ∧
      ps.length = res.symbols.length ∧ (∀ p ∈ ps, 0 ≤ p) ∧ ps.sum = 1 := by
  obtain ⟨res, h', e, h1, h2, h3⟩ := C12_weighted_average hf h hv hw hst hnn hws hans hpos
  have hm : ∀ sym, 0 ≤ mass rs sym := by
    intro sym
    refine List.sum_nonneg fun x hx => ?_
    obtain ⟨r, hr, rfl⟩ := List.mem_map.1 hx
    refine mul_nonneg (hnn r hr).1 (List.sum_nonneg fun y hy => ?_)
    obtain ⟨e, he, rfl⟩ := List.mem_map.1 hy
    exact (hnn r hr).2 e (List.mem_of_mem_filter he)
  refine ⟨res, h', res.symbols.map fun sym => mass rs sym / total rs, e, ?_, by simp, ?_, ?_⟩
  · rw [h3, List.map_map]; rfl
  · intro p hp
    obtain ⟨sym, _, rfl⟩ := List.mem_map.1 hp
    exact div_nonneg (hm sym) hpos.le
  · have hnd : res.symbols.Nodup := h1.imp fun hlt he => by
      rw [he] at hlt; exact byteLt_irrefl _ hlt
    have := sum_mass (rs := rs) hnd fun r hr e he => (h2 e.1).2 ⟨r, hr, e, he, rfl⟩
    have h4 := sum_map_div (res.symbols.map (mass rs)) (total rs)
    rw [List.map_map, this, div_self hpos.ne'] at h4
    exact h4

/-! ## Non-vacuity -/

/-- A component that always offers `a` with 1/4 and `b` with 3/4. -/
noncomputable def quarter : Env Arith.xr Unit where
  start _ := 0
  next _ s _ := (s + 1, ())
  extract _ _ := (some ⟨[[97], [98]], [XR.fin (1/4), XR.fin (3/4)], XR.fin 1⟩, ())
  symScore _ _ c := (costOf (if c = 97 then 1/4 else 3/4), ())
  update _ _ _ _ := (true, ())
  orderN l := l
  orderV l := l

theorem quarter_fair : quarter.Fair := ⟨fun _ => .rfl, fun _ => .rfl⟩

theorem quarter_static : quarter.toLMOps.Static (fun _ s _ => s + 1)
    (fun _ _ c => costOf (if c = 97 then 1/4 else 3/4)) :=
  ⟨⟨fun _ _ _ => rfl, fun _ _ => rfl, fun _ _ _ => rfl, fun _ _ _ _ => rfl⟩, fun _ _ _ => rfl,
    fun _ _ _ => rfl, fun _ _ _ => rfl, fun _ _ => rfl, fun _ _ _ => rfl, fun _ _ _ _ => rfl,
    fun _ _ _ => rfl, fun _ _ => rfl, fun _ _ _ => rfl, fun _ _ _ _ => rfl⟩

/-- C11, C12: a reachable hub of two such components with equal weights meets the hypotheses. -/
example : ∃ (h : Hub Arith.xr Unit) (st : HubState XR) (rs : List Share),
    Reach quarter [(), ()] ⟨.interpolation, [XR.fin 0, XR.fin 0], 0, 100⟩ [] h ∧
    h.valid 0 = true ∧ 2 ≤ h.weights.length ∧ h.states[0]? = some st ∧
    (∀ r ∈ rs, 0 ≤ r.1 ∧ ∀ e ∈ r.2, 0 ≤ e.2) ∧
    getMixtureWeights h 0 true = .ok (rs.map fun r => costOf r.1) ∧
    Answers quarter st 0 h.models rs ∧ 0 < total rs := by
  have hr : Reach quarter [(), ()] ⟨.interpolation, [XR.fin 0, XR.fin 0], 0, 100⟩ [] _ :=
    ⟨_, rfl, rfl⟩
  obtain ⟨hw, _⟩ := C09_weights (ws := [0, 0]) quarter_fair hr rfl rfl (by simp)
  refine ⟨_, _, [(1/2, [([97], 1/4), ([98], 3/4)]), (1/2, [([97], 1/4), ([98], 3/4)])], hr, rfl,
    by rw [hw]; simp, rfl, ?_, ?_, ?_, ?_⟩
  · intro r hr
    have hr : r = (1/2, [([97], 1/4), ([98], 3/4)]) := by simpa using hr
    subst hr
    refine ⟨by norm_num, fun e he => ?_⟩
    have he : e = ([97], 1/4) ∨ e = ([98], 3/4) := by simpa using he
    rcases he with rfl | rfl <;> norm_num
  · show Except.ok _ = _
    rw [hw]
    simp
    norm_num
  · refine ⟨rfl, ?_⟩
    rintro (_ | _ | k) m r hm hr
    · cases hr; exact ⟨(), XR.fin 1, rfl⟩
    · cases hr; exact ⟨(), XR.fin 1, rfl⟩
    · simp at hr
  · simp [total]; norm_num

/-- C10: the hypotheses hold for a context of two symbols and history length two. -/
example : ∃ (h h' : Hub Arith.xr Unit) (r : Int),
    Reach quarter [(), ()] ⟨.interpolation, [XR.fin 0, XR.fin 0], 2, 100⟩ [] h ∧
    contextState quarter h [97, 98] (-1) = .ok (r, h') ∧ h'.selfRecycled = false ∧
    0 < (([(0 : ℝ), 0].zip [(), ()]).map (bayesScore (fun _ s _ => s + 1)
      (fun _ _ c => if c = 97 then 1/4 else 3/4) quarter.start 2 [97, 98])).sum := by
  refine ⟨_, _, _, ⟨_, rfl, rfl⟩, rfl, rfl, ?_⟩
  simp [bayesScore, pathCosts, lastN]

end Mozolm.Hub
