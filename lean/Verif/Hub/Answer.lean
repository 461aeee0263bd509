import Verif.Hub.Quiet
import Verif.Props.HubNumeric
import Verif.Props.HubExtract
import Verif.Server.HandlerLemmas

/-!
# Hub: the answer to a text in terms of the components' answers to it
-/

namespace Mozolm.Hub

section
variable {A : Arith} {σ : Type} {env : Env A σ} {live : σ → Prop} {ok : σ → Int → Prop}
  {den : σ → Int → List Int → Prop} {ans : σ → List Int → Option (LMScores A.D)}
  {cost : σ → List Int → Int → A.C} {models : List σ} {cfg : HubConfig A.C} {calls : List Call} {h h' : Hub A σ}

theorem kept_at (ht : env.toLMOps.Traces live ok den ans cost) (hlv : ∀ m ∈ models, live m)
    {ws : List A.C} {hlen max : Nat}
    (hg : Good (env.guard live ok) (initial (env.guard live ok) models ws hlen max) h) {j : Nat} {m m' : σ}
    (hm : models[j]? = some m) (hm' : h.models[j]? = some m') : ans m' = ans m ∧ cost m' = cost m := by
  obtain ⟨a, c⟩ := good_kept ht hlv hg
  have a' := congrArg (fun l => l[j]?) a
  have c' := congrArg (fun l => l[j]?) c
  simp only [List.getElem?_map, hm, hm', Option.map_some, Option.some.injEq] at a' c'
  exact ⟨a', c'⟩

/-- Without mixing the hub's answer to a text is the first component's. -/
theorem answer_single (hf : env.Fair) (ht : env.toLMOps.Traces live ok den ans cost) {m : σ} {ms : List σ}
    (hlv : ∀ x ∈ m :: ms, live x) (hr : Reach env (m :: ms) cfg calls h)
    (hcfg : cfg.mixture = .none ∨ cfg.weights.length < 2) {cs : List Int} (hcs : ∀ c ∈ cs, 0 ≤ c) {init r : Int}
    (hinit : init ≤ 0) (he : contextState env h cs init = .ok (r, h')) (hg : h'.selfRecycled = false) :
    ∃ h'', extractLMScores env h' r = .ok (ans m cs, h'') := by
  obtain ⟨o, g, k, st, rfl, hs, hh, _⟩ := context_holds hf ht hlv hr hcs hinit he hg
  have hv : h'.valid k = true := by
    have := lt_of_getElem?_eq_some hs
    simp only [Hub.valid, Bool.and_eq_true, decide_eq_true_eq]; omega
  have hr' : Reach env (m :: ms) cfg (calls ++ [.context cs init]) h' := by
    obtain ⟨h0, e0, e1⟩ := hr
    exact ⟨h0, e0, by rw [Server.run_append, e1, ok_bind]; simp only [run, step, he, ok_bind]⟩
  have hlen : h'.models.length = (m :: ms).length := g.const.models.length_eq.symm
  obtain ⟨m', ms', hm⟩ : ∃ m' ms', h'.models = m' :: ms' := by
    cases hx : h'.models with
    | nil => rw [hx] at hlen; cases hlen
    | cons a b => exact ⟨a, b, rfl⟩
  rw [C70_single hf hr' hcfg hv hs hm]
  have hm0 : h'.models[0]? = some m' := by rw [hm]; rfl
  obtain ⟨a1, a2, a3⟩ := hh.den 0 m' hm0
  rw [ht.extract _ _ _ a1 a2 a3, (kept_at ht hlv g (j := 0) rfl hm0).1]
  exact ⟨_, rfl⟩

end

/-! ## The mixture, in exact arithmetic -/

/-- What a component of a mixture says about a text: its configured weight (as a negative log), the
probabilities it gives to the characters of the text one after the other, and its answer – symbols with
probabilities – after the text. -/
structure Voice where
  weight : ℝ
  chars : List ℝ
  entries : List (Str × ℝ)

/-- Its weight once the text is typed: the configured one times its probabilities for the last `j` characters. -/
noncomputable def Voice.earned (j : Nat) (v : Voice) : ℝ := Real.exp (-v.weight) * (lastN j v.chars).prod

/-- The components' shares in the mixture. -/
noncomputable def sharesOf (j : Nat) (vs : List Voice) : List Share :=
  vs.map fun v => (v.earned j / (vs.map (Voice.earned j)).sum, v.entries)

section
open XR Scores
variable {σ : Type} {env : Env Arith.xr σ} {live : σ → Prop} {ok : σ → Int → Prop}
  {den : σ → Int → List Int → Prop} {ans : σ → List Int → Option (LMScores XR)}
  {cost : σ → List Int → Int → XR} {models : List σ} {cfg : HubConfig XR} {calls : List Call} {h h' : Hub Arith.xr σ}

theorem Voice.earned_nonneg {j : Nat} {v : Voice} (hv : ∀ p ∈ v.chars, 0 ≤ p) : 0 ≤ v.earned j :=
  mul_nonneg (Real.exp_pos _).le (List.prod_nonneg fun p hp => hv p (List.mem_of_mem_drop hp))

theorem exp_sum_pos {ws : List ℝ} (h : 2 ≤ ws.length) : 0 < (ws.map fun v => Real.exp (-v)).sum := by
  cases ws with
  | nil => simp at h
  | cons w ws =>
    simp only [List.map_cons, List.sum_cons]
    have h1 := Real.exp_pos (-w)
    have h3 := sum_nonneg' (l := ws.map fun w => Real.exp (-w)) fun p hp => by
      obtain ⟨w, _, rfl⟩ := List.mem_map.1 hp
      exact (Real.exp_pos _).le
    linarith

/-- From the sums kept at a state to the weights in force there. -/
theorem weights_of_sums {vs : List Voice} {j : Nat} {k : Nat} {st : HubState XR} (h2 : 2 ≤ vs.length)
    (hwt : h'.weights = (vs.map Voice.weight).map fun v =>
      costOf (Real.exp (-v) / ((vs.map Voice.weight).map fun v => Real.exp (-v)).sum))
    (hhl : h'.hlen = j) (hj : j ≠ 0) (hs : h'.states[k]? = some st) (hsl : st.histSum.length = vs.length)
    (hnn : ∀ v ∈ vs, ∀ p ∈ v.chars, 0 ≤ p) (hpos : 0 < (vs.map (Voice.earned j)).sum)
    (hsum : ∀ (i : Nat) (v : Voice), vs[i]? = some v → st.histSum[i]? = some (costOf (lastN j v.chars).prod)) :
    getMixtureWeights h' k true = .ok ((sharesOf j vs).map fun s => costOf s.1) := by
  have hv : h'.valid k = true := by
    have := lt_of_getElem?_eq_some hs
    simp only [Hub.valid, Bool.and_eq_true, decide_eq_true_eq]; omega
  have hsumpos := exp_sum_pos (ws := vs.map Voice.weight) (by simpa using h2)
  set E := ((vs.map Voice.weight).map fun v => Real.exp (-v)).sum with hE
  have hearn : ∀ v ∈ vs, 0 ≤ v.earned j := fun v hv => Voice.earned_nonneg (hnn v hv)
  have hz : List.zipWith Arith.xr.times h'.weights st.histSum = (vs.map fun v => v.earned j / E).map costOf := by
    refine List.ext_getElem? fun i => ?_
    rw [List.getElem?_zipWith, hwt]
    simp only [List.getElem?_map]
    by_cases hi : i < vs.length
    · obtain ⟨v, hv⟩ := exists_getElem?_of_lt hi
      rw [hsum i v hv, hv]
      simp only [Option.map_some]
      have hpp : 0 ≤ (lastN j v.chars).prod :=
        List.prod_nonneg fun p hp => hnn v (List.mem_of_getElem? hv) p (List.mem_of_mem_drop hp)
      refine congrArg some ?_
      refine (add_costOf (div_nonneg (Real.exp_pos _).le hsumpos.le) hpp).trans ?_
      congr 1
      simp only [Voice.earned]
      ring
    · have h3 : vs[i]? = none := List.getElem?_eq_none (by omega)
      rw [h3]
      rfl
  have hps : ∀ p ∈ vs.map fun v => v.earned j / E, 0 ≤ p := by
    intro p hp
    obtain ⟨v, hv, rfl⟩ := List.mem_map.1 hp
    exact div_nonneg (hearn v hv) hsumpos.le
  have hS : (vs.map fun v => v.earned j / E).sum = (vs.map (Voice.earned j)).sum / E := by
    have := sum_map_div (vs.map (Voice.earned j)) E
    rw [List.map_map] at this
    exact this
  unfold getMixtureWeights
  rw [if_neg (by simp [hv, hhl]; omega)]
  have hs' : h'.states[(k : Int).toNat]? = some st := hs
  rw [hs']
  simp only [bayesianWeights]
  rw [if_pos (by rw [hwt, hsl]; simp), hz, normalizeWeights_costOf hps (by rw [hS]; positivity), hS,
    List.map_map]
  simp only [sharesOf, List.map_map]
  congr 1
  refine List.map_congr_left fun v _ => ?_
  simp only [Function.comp]
  rw [div_div_div_cancel_right₀ hsumpos.ne']

/-- The weights in force at the state of a text. -/
theorem context_weights (hf : env.Fair) (ht : env.toLMOps.Traces live ok den ans cost) (hlv : ∀ m ∈ models, live m)
    (hr : Reach env models cfg calls h) (hmix : cfg.mixture = .interpolation) {vs : List Voice}
    (hws : cfg.weights = vs.map fun v => .fin v.weight) (h2 : 2 ≤ vs.length) (hlen : vs.length = models.length)
    {cs : List Int} (hcs : ∀ c ∈ cs, 0 ≤ c)
    (hnn : ∀ v ∈ vs, ∀ p ∈ v.chars, 0 ≤ p)
    (hch : ∀ (k : Nat) (m : σ) (v : Voice), models[k]? = some m → vs[k]? = some v →
      traceCosts (cost m) [] cs = v.chars.map costOf)
    (hpos : 0 < (vs.map (Voice.earned cfg.bayesianHistoryLength.toNat)).sum)
    {init r : Int} (hinit : init ≤ 0) (he : contextState env h cs init = .ok (r, h')) (hg : h'.selfRecycled = false) :
    getMixtureWeights h' r true = .ok ((sharesOf cfg.bayesianHistoryLength.toNat vs).map fun s => costOf s.1) := by
  obtain ⟨o, g, k, st, rfl, hs, hh, hx⟩ := context_holds hf ht hlv hr hcs hinit he hg
  have hr' : Reach env models cfg (calls ++ [.context cs init]) h' := by
    obtain ⟨h0, e0, e1⟩ := hr
    exact ⟨h0, e0, by rw [Server.run_append, e1, ok_bind]; simp only [run, step, he, ok_bind]⟩
  have hv : h'.valid k = true := by
    have := lt_of_getElem?_eq_some hs
    simp only [Hub.valid, Bool.and_eq_true, decide_eq_true_eq]; omega
  have hws' : cfg.weights = (vs.map Voice.weight).map XR.fin := by rw [hws, List.map_map]; rfl
  obtain ⟨hwt, _⟩ := C09_weights hf hr' hmix hws' (by simpa using h2)
  have hsumpos := exp_sum_pos (ws := vs.map Voice.weight) (by simpa using h2)
  have hhl : h'.hlen = cfg.bayesianHistoryLength.toNat := by
    rw [g.const.hlen]
    show cfgHlen (A := Arith.xr) cfg = _
    unfold cfgHlen
    rw [if_pos ⟨hmix, by rw [hws]; simpa using h2⟩]
  generalize cfg.bayesianHistoryLength.toNat = j at hhl hpos ⊢
  have hml : h'.models.length = models.length := g.const.models.length_eq.symm
  set E := ((vs.map Voice.weight).map fun v => Real.exp (-v)).sum with hE
  by_cases hj : j = 0
  · subst hj
    unfold getMixtureWeights
    rw [if_pos (by simp [hhl]), hwt, sharesOf]
    have hearn : ∀ v : Voice, v.earned 0 = Real.exp (-v.weight) := by
      intro v; simp [Voice.earned, lastN]
    have hall : vs.map (Voice.earned 0) = vs.map fun v => Real.exp (-v.weight) :=
      List.map_congr_left fun v _ => hearn v
    simp only [List.map_map, Function.comp_def, hall, hearn, hE]
  · have hxx := hx (by omega)
    have hsum : ∀ (i : Nat) (v : Voice), vs[i]? = some v → st.histSum[i]? = some (costOf (lastN j v.chars).prod) := by
      intro i v hi
      have hlt := lt_of_getElem?_eq_some hi
      obtain ⟨m, hm⟩ := exists_getElem?_of_lt (l := models) (i := i) (by omega)
      obtain ⟨m', hm'⟩ := exists_getElem?_of_lt (l := h'.models) (i := i) (by omega)
      obtain ⟨_, e2⟩ := hxx i m' hm'
      rw [e2, (kept_at ht hlv g hm hm').2, hch i m v hm hi, hhl]
      congr 1
      have hvn := hnn v (List.mem_of_getElem? hi)
      split
      · next hc =>
        have := hch i m v hm hi
        rw [hc] at this
        have hnil : v.chars = [] := by simpa [traceCosts] using this.symm
        rw [hnil]
        simp [lastN, costOf_one]
      · have hmap : histOf Arith.xr j (v.chars.map costOf) = (lastN j (List.replicate j 1 ++ v.chars)).map costOf := by
          unfold histOf
          rw [← lastN_map, List.map_append, List.map_replicate, costOf_one]
        rw [hmap, (rowSum_costOf _).1, lastN_padded]
        intro p hp
        rcases List.mem_append.1 (List.mem_of_mem_drop hp) with hp | hp
        · rw [List.eq_of_mem_replicate hp]; norm_num
        · exact hvn p hp
    have hsl : st.histSum.length = models.length := by
      have := (o.inv.st _ st hs).hist (by omega)
      rw [this.2.1, hml]
    exact weights_of_sums h2 hwt hhl hj hs (by rw [hsl, hlen]) hnn hpos hsum

/-- A hub mixing components answers a text with the mixture of their answers to it. -/
theorem answer_mixture (hf : env.Fair) (ht : env.toLMOps.Traces live ok den ans cost) (hlv : ∀ m ∈ models, live m)
    (hr : Reach env models cfg calls h) (hmix : cfg.mixture = .interpolation) {vs : List Voice}
    (hws : cfg.weights = vs.map fun v => .fin v.weight) (h2 : 2 ≤ vs.length) (hlen : vs.length = models.length)
    {cs : List Int} (hcs : ∀ c ∈ cs, 0 ≤ c)
    (hnn : ∀ v ∈ vs, (∀ p ∈ v.chars, 0 ≤ p) ∧ ∀ e ∈ v.entries, 0 ≤ e.2)
    (hch : ∀ (k : Nat) (m : σ) (v : Voice), models[k]? = some m → vs[k]? = some v →
      traceCosts (cost m) [] cs = v.chars.map costOf ∧
      ∃ nrm, ans m cs = some ⟨v.entries.map Prod.fst, v.entries.map fun e => .fin e.2, nrm⟩)
    (hpos : 0 < (vs.map (Voice.earned cfg.bayesianHistoryLength.toNat)).sum)
    (htot : 0 < total (sharesOf cfg.bayesianHistoryLength.toNat vs))
    {init r : Int} (hinit : init ≤ 0) (he : contextState env h cs init = .ok (r, h')) (hg : h'.selfRecycled = false) :
    ∃ res h'', extractLMScores env h' r = .ok (some res, h'') ∧
      res.symbols.Pairwise byteLt ∧
      (∀ sym, sym ∈ res.symbols ↔ ∃ v ∈ vs, ∃ e ∈ v.entries, e.1 = sym) ∧
      res.probs = res.symbols.map fun sym => XR.fin (mass (sharesOf cfg.bayesianHistoryLength.toNat vs) sym /
        total (sharesOf cfg.bayesianHistoryLength.toNat vs)) := by
  have hw := context_weights hf ht hlv hr hmix hws h2 hlen hcs (fun v hv => (hnn v hv).1)
    (fun k m v hm hv => (hch k m v hm hv).1) hpos hinit he hg
  obtain ⟨o, g, k, st, rfl, hs, hh, -⟩ := context_holds hf ht hlv hr hcs hinit he hg
  have hr' : Reach env models cfg (calls ++ [.context cs init]) h' := by
    obtain ⟨h0, e0, e1⟩ := hr
    exact ⟨h0, e0, by rw [Server.run_append, e1, ok_bind]; simp only [run, step, he, ok_bind]⟩
  have hv : h'.valid k = true := by
    have := lt_of_getElem?_eq_some hs
    simp only [Hub.valid, Bool.and_eq_true, decide_eq_true_eq]; omega
  have hws' : cfg.weights = (vs.map Voice.weight).map XR.fin := by rw [hws, List.map_map]; rfl
  obtain ⟨hwt, _⟩ := C09_weights hf hr' hmix hws' (by simpa using h2)
  have hml : h'.models.length = models.length := g.const.models.length_eq.symm
  have hans : Answers env st 0 h'.models (sharesOf cfg.bayesianHistoryLength.toNat vs) := by
    refine ⟨by simp [sharesOf, hml, hlen], fun i m' s hm' hs' => ?_⟩
    simp only [sharesOf, List.getElem?_map, Option.map_eq_some_iff] at hs'
    obtain ⟨v, hv, rfl⟩ := hs'
    obtain ⟨m, hm⟩ := exists_getElem?_of_lt (l := models) (i := i) (by
      have := lt_of_getElem?_eq_some hm'; omega)
    obtain ⟨_, nrm, hn⟩ := hch i m v hm hv
    obtain ⟨a1, a2, a3⟩ := hh.den i m' hm'
    have := ht.extract _ _ _ a1 a2 a3
    rw [(kept_at ht hlv g hm hm').1, hn] at this
    rw [Nat.zero_add]
    exact ⟨_, nrm, Prod.ext this rfl⟩
  have hsn : ∀ s ∈ sharesOf cfg.bayesianHistoryLength.toNat vs, 0 ≤ s.1 ∧ ∀ e ∈ s.2, 0 ≤ e.2 := by
    intro s hs
    obtain ⟨v, hv, rfl⟩ := List.mem_map.1 hs
    exact ⟨div_nonneg (Voice.earned_nonneg (hnn v hv).1) hpos.le, (hnn v hv).2⟩
  obtain ⟨res, h'', e1, e2, e3, e4⟩ := C12_weighted_average hf h' hv (by rw [hwt]; simpa using h2) (st := st) hs
    (rs := sharesOf cfg.bayesianHistoryLength.toNat vs) hsn hw hans htot
  refine ⟨res, h'', e1, e2, fun sym => ?_, e4⟩
  rw [e3 sym]
  simp only [sharesOf, List.mem_map]
  constructor
  · rintro ⟨_, ⟨v, hv, rfl⟩, e, he, h⟩; exact ⟨v, hv, e, he, h⟩
  · rintro ⟨v, hv, e, he, h⟩; exact ⟨_, ⟨v, hv, rfl⟩, e, he, h⟩

end
end Mozolm.Hub
