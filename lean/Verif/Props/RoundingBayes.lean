import Verif.Props.Rounding

/-! # C88: the Bayesian weights with rounding -/

namespace Mozolm.Hub
open XR Scores Real

variable {φ : Prop} {ε δ : ℝ} {F : Rounding φ ε δ} {σ : Type} {env : Env F.arith σ}

theorem foldl_times_near (F : Rounding φ ε δ) {d : ℝ} : ∀ (l : List (XR × ℝ)) {e : ℝ} {a : XR} {p : ℝ}, CostNear φ e a p →
    (∀ x ∈ l, CostNear φ d x.1 x.2) →
    CostNear φ (e + l.length * (d + ε)) ((l.map Prod.fst).foldl F.times a) (p * (l.map Prod.snd).prod) := by
  intro l
  induction l with
  | nil => intro e a p ha _; simpa using ha
  | cons x l ih =>
    intro e a p ha hl
    have := ih (CostNear.times F ha (hl x (by simp))) (fun y hy => hl y (by simp [hy]))
    simp only [List.map_cons, List.foldl_cons, List.prod_cons, List.length_cons, Nat.cast_succ]
    convert this using 1 <;> ring

theorem rowSum_near (F : Rounding φ ε δ) (hε : 0 ≤ ε) {d : ℝ} (l : List (XR × ℝ)) (hl : ∀ x ∈ l, CostNear φ d x.1 x.2) :
    CostNear φ (l.length * (d + ε)) (rowSum F.arith (l.map Prod.fst)) (l.map Prod.snd).prod := by
  rcases List.eq_nil_or_concat l with rfl | ⟨l', a, rfl⟩
  · simp only [rowSum, List.map_nil, List.prod_nil, List.length_nil, Nat.cast_zero, zero_mul]
    exact .inr (.inr ⟨one_pos, 0, rfl, by simp⟩)
  · rw [List.concat_eq_append] at *
    have := foldl_times_near F (d := d) l' (hl a (by simp)) (fun x hx => hl x (by simp [hx]))
    simp only [rowSum, List.map_append, List.map_cons, List.map_nil, List.dropLast_concat,
      List.getLast?_append, List.getLast?_singleton, Option.some_or, Option.getD_some]
    rw [List.prod_append, List.prod_singleton, mul_comm (l'.map Prod.snd).prod]
    refine CostNear.mono this ?_
    rw [List.length_append, List.length_singleton, Nat.cast_succ]
    linarith

theorem pathCosts_zip {C D : Type} (v : Int → Int → Int) (f : Int → Int → C) (g : Int → Int → D) (s : Int) (cs : List Int) :
    pathCosts v f s cs = (pathCosts v (fun x c => (f x c, g x c)) s cs).map Prod.fst ∧
    pathCosts v g s cs = (pathCosts v (fun x c => (f x c, g x c)) s cs).map Prod.snd := by
  induction cs generalizing s with
  | nil => exact ⟨rfl, rfl⟩
  | cons c cs ih => simp [pathCosts, (ih _).1, (ih _).2]

theorem pathCosts_all {C : Type} {v : Int → Int → Int} {f : Int → Int → C} {P : C → Prop} (h : ∀ x c, P (f x c)) (s : Int)
    (cs : List Int) : ∀ p ∈ pathCosts v f s cs, P p := by
  induction cs generalizing s with
  | nil => simp [pathCosts]
  | cons c cs ih =>
    intro p hm
    simp only [pathCosts, List.mem_cons] at hm
    rcases hm with rfl | hm
    · exact h _ _
    · exact ih _ p hm

/-- **C88** With static components whose symbol scores are the costs of the probabilities `pr` within `d`, and Bayesian history
length `j`, the mixture weights at the state reached for a context are the costs of `w_k · Π (probabilities of the last j
symbols) / Σ` within `2 (n ε + j (d + ε) + ε) + n ε`. -/
theorem C88_bayes {view : σ → Int → Int → Int} {cost : σ → Int → Int → XR} {pr : σ → Int → Int → ℝ} {d : ℝ}
    {models : List σ} {cfg : HubConfig XR} {calls : List Call} {h h' : Hub F.arith σ} (hε : 0 ≤ ε) (hd : 0 ≤ d)
    (hf : env.Fair) (hs : env.toLMOps.Static view cost)
    (hnear : ∀ m x c, CostNear φ d (cost m x c) (pr m x c)) (hr : Reach env models cfg calls h)
    (hmix : cfg.mixture = .interpolation) {ws : List ℝ} (hws : cfg.weights = ws.map XR.fin)
    (h2 : 2 ≤ ws.length) (hm : ws.length = models.length) (hj : 0 < cfg.bayesianHistoryLength)
    {cs : List Int} (hcs : ∀ c ∈ cs, 0 ≤ c) {r : Int} (he : contextState env h cs (-1) = .ok (r, h'))
    (hg : h'.selfRecycled = false)
    (hpos : 0 < ((ws.zip models).map (bayesScore view pr env.start cfg.bayesianHistoryLength.toNat cs)).sum) :
    ∃ wts : List XR, getMixtureWeights h' r true = .ok wts ∧ wts.length = ws.length ∧
      ∀ (k : Nat) (x : XR) (wm : ℝ × σ), wts[k]? = some x → (ws.zip models)[k]? = some wm →
        CostNear φ (2 * (ws.length * ε + cfg.bayesianHistoryLength.toNat * (d + ε) + ε) + ws.length * ε) x
          (bayesScore view pr env.start cfg.bayesianHistoryLength.toNat cs wm /
            ((ws.zip models).map (bayesScore view pr env.start cfg.bayesianHistoryLength.toNat cs)).sum) := by
  have g := reach_good hf hr
  obtain ⟨r', h'', e, g2, _⟩ := contextLoop_ok hf g.inv (if (-1 : Int) < 0 then 0 else -1) cs
  have he2 : contextLoop env h (if (-1 : Int) < 0 then 0 else -1) cs = .ok (r, h') := he
  rw [he2] at e; cases e
  have hw2 : 2 ≤ cfg.weights.length := by rw [hws]; simpa using h2
  obtain ⟨rst, hr0, hst, hC⟩ := C13_history_is_last_costs hf hs hr hmix hw2 hj hcs he hg
  obtain ⟨hwl, hwt⟩ := C88_weights hε hf hr hmix hws h2
  rw [← g2.const.weights] at hwl hwt
  have hne : ws ≠ [] := by intro e; simp [e] at h2
  have hsumpos := exp_total_pos hne
  set j := cfg.bayesianHistoryLength.toNat with hjdef
  have hjl : 0 < j := by omega
  -- the sums are near the costs of the products
  have hsum : ∀ (k : Nat) (m : σ), models[k]? = some m → ∃ x : XR, rst.histSum[k]? = some x ∧
      CostNear φ (j * (d + ε)) x (lastN j (pathCosts (view m) (pr m) (env.start m) cs)).prod := by
    intro k m hk
    obtain ⟨c1, c2, c3⟩ := hC k m hk
    by_cases hn : cs = []
    · refine ⟨.fin 0, c3 hn, ?_⟩
      rw [hn]
      simp only [pathCosts, lastN, List.drop_nil, List.prod_nil]
      refine CostNear.mono (e := 0) (.inr (.inr ⟨one_pos, 0, rfl, by simp⟩)) (by positivity)
    · obtain ⟨z1, z2⟩ := pathCosts_zip (view m) (cost m) (pr m) (env.start m) cs
      refine ⟨_, by rw [c2 hn, c1, Option.map_some], ?_⟩
      have hmap : (List.replicate j (XR.fin 0) ++ pathCosts (view m) (cost m) (env.start m) cs) =
          (List.replicate j (XR.fin 0, (1 : ℝ)) ++ pathCosts (view m) (fun x c => (cost m x c, pr m x c)) (env.start m) cs).map Prod.fst := by
        rw [List.map_append, List.map_replicate, ← z1]
      have hmap2 : (List.replicate j (1 : ℝ) ++ pathCosts (view m) (pr m) (env.start m) cs) =
          (List.replicate j (XR.fin 0, (1 : ℝ)) ++ pathCosts (view m) (fun x c => (cost m x c, pr m x c)) (env.start m) cs).map Prod.snd := by
        rw [List.map_append, List.map_replicate, ← z2]
      rw [← lastN_padded, hmap2, lastN_map]
      have := rowSum_near F hε (lastN j (List.replicate j (XR.fin 0, (1 : ℝ)) ++
        pathCosts (view m) (fun x c => (cost m x c, pr m x c)) (env.start m) cs)) (by
          intro x hx
          have hx := List.mem_of_mem_drop hx
          rcases List.mem_append.1 hx with hx | hx
          · rw [List.eq_of_mem_replicate hx]
            exact CostNear.mono (e := 0) (.inr (.inr ⟨one_pos, 0, rfl, by simp⟩)) hd
          · exact pathCosts_all (P := fun x => CostNear φ d x.1 x.2) (fun x c => hnear m x c) _ _ x hx)
      rw [← lastN_map, ← hmap] at this
      refine this.mono ?_
      refine mul_le_mul_of_nonneg_right ?_ (by linarith)
      have : (lastN j (List.replicate j (XR.fin 0, (1 : ℝ)) ++ pathCosts (view m) (fun x c => (cost m x c, pr m x c)) (env.start m) cs)).length ≤ j := by
        simp only [lastN, List.length_drop]; omega
      exact_mod_cast this
  have hml : h'.models.length = models.length := by
    rw [← g2.const.models.length_eq, ← g.const.models.length_eq]; rfl
  have hhl : h'.hlen = j := by
    rw [g2.const.hlen, g.const.hlen]
    show cfgHlen (A := F.arith) cfg = _
    unfold cfgHlen
    rw [if_pos ⟨hmix, hw2⟩]
  have hsl : rst.histSum.length = models.length := by
    have := (g2.inv.st _ rst hst).hist (by omega)
    rw [this.2.1, hml]
  have hval : h'.valid r = true := by
    have := lt_of_getElem?_eq_some hst
    simp only [Hub.valid, Bool.and_eq_true, decide_eq_true_eq]; omega
  let sc : ℝ × σ → ℝ := bayesScore view pr env.start j cs
  let S : ℝ := (ws.map fun v => exp (-v)).sum
  have hS0 : 0 < S := hsumpos
  have hS : ((ws.zip models).map fun wm => sc wm / S).sum = ((ws.zip models).map sc).sum / S := by
    have := sum_map_div ((ws.zip models).map sc) S
    rw [List.map_map] at this
    exact this
  have hpos' : 0 < ((ws.zip models).map sc).sum := hpos
  obtain ⟨n1, n2⟩ := normalizeWeights_near F hε (e := ws.length * ε + j * (d + ε) + ε)
    (ws := List.zipWith F.times h'.weights rst.histSum) (ps := (ws.zip models).map fun wm => sc wm / S)
    (by rw [List.length_zipWith, List.length_map, List.length_zip, hwl, hsl]) (by
      intro k w p hk hp
      rw [List.getElem?_zipWith] at hk
      rw [List.getElem?_map] at hp
      obtain ⟨wm, hwm, rfl⟩ := Option.map_eq_some_iff.1 hp
      rw [List.getElem?_zip_eq_some] at hwm
      obtain ⟨x, hx, hnx⟩ := hsum k wm.2 hwm.2
      rw [hx] at hk
      cases hw' : h'.weights[k]? with
      | none => rw [hw'] at hk; simp at hk
      | some y =>
        rw [hw'] at hk
        simp only [Option.some.injEq] at hk
        subst hk
        have h3 := CostNear.times F (hwt k y wm.1 hw' hwm.1) hnx
        convert h3 using 1
        simp only [sc, bayesScore, S]
        ring) (by rw [hS]; positivity)
  refine ⟨normalizeWeights F.arith (List.zipWith F.times h'.weights rst.histSum), ?_, ?_, ?_⟩
  · unfold getMixtureWeights
    rw [if_neg (by simp [hval, hhl]; omega), hst]
    simp only [bayesianWeights]
    rw [if_pos (by rw [hwl, hsl, ← hm])]
  · rw [n1, List.length_map, List.length_zip, ← hm, min_self]
  · intro k x wm hx hwm
    have := n2 k x (sc wm / S) hx (by rw [List.getElem?_map, hwm]; rfl)
    rw [hS, div_div_div_cancel_right₀ hS0.ne', List.length_map, List.length_zip, ← hm, min_self] at this
    exact this

end Mozolm.Hub
