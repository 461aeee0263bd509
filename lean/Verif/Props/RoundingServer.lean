import Verif.System.RoundingSpec
import Verif.System.Shares
import Verif.Props.Rounding

/-!
# C88: the whole server with rounding

The theorems about the service that do not speak of the size of probabilities (C72 and what follows from it) are about every
arithmetic.  Here: arithmetic with rounding satisfies what they assume of the counts of the PPM model, and the probabilities in
every reply of the server add up to one but for the rounding.
-/

namespace Mozolm
open XR Real Scores

variable {φ : Prop} {ε δ : ℝ}

/-- the shares of a total add up to one -/
theorem Shares.one {F : Rounding φ ε δ} {ps : List F.arith.D} (h : Shares F.arith ps) (hε : 0 ≤ ε) (h0 : 0 ≤ δ) (h1 : δ < 1)
    (hne : ps ≠ []) (hn : ∀ p ∈ ps, p ≠ .nan) : OneWithin (ps.length * ε + 3 * slack δ) ps := by
  have hsl := slack_nonneg h0 h1
  cases h with
  | none => exact absurd rfl hne
  | costs hp =>
    obtain ⟨ys, y1, y2, y3, y4⟩ := shares_sum F hε h1 hp (fun v hv => hn _ (List.mem_map_of_mem hv))
    refine ⟨ys, y1, y2, le_trans (exp_le_exp.2 ?_) y3, y4.trans (exp_le_exp.2 ?_)⟩
    · rw [List.length_map]; linarith
    · rw [List.length_map]; linarith
  | @counts row hr hc =>
    have hpos := Bigram.row_sum_pos hr hc
    have hposR : (0 : ℝ) < (row.sum : ℝ) := by exact_mod_cast hpos
    obtain ⟨ys, y1, y2, y3, y4⟩ := near_list (E := 3 * slack δ)
      (row.map fun c : Int => (F.ddiv (F.ofInt c) (F.ofInt row.sum), (c : ℝ) / (row.sum : ℝ))) (by
        intro x hx
        obtain ⟨c, hcm, rfl⟩ := List.mem_map.1 hx
        have hc1 := hc c hcm
        have hcR : (0 : ℝ) ≤ (c : ℝ) := by exact_mod_cast (by omega : 0 ≤ c)
        refine ⟨hn _ (List.mem_map.2 ⟨c, hcm, rfl⟩), by positivity, ?_⟩
        refine (ValueNear.div F h1 hcR hposR (ValueNear.ofInt F h1 (by omega)) (ValueNear.ofInt F h1 hpos.le)).mono
          (by positivity) (le_of_eq (by ring)))
    have hs : ((row.map fun c : Int => (F.ddiv (F.ofInt c) (F.ofInt row.sum), (c : ℝ) / (row.sum : ℝ))).map Prod.snd).sum = 1 := by
      rw [List.map_map]
      have := sum_map_div (row.map fun c : Int => (c : ℝ)) (row.sum : ℝ)
      rw [List.map_map, ← Bigram.cast_sum, div_self hposR.ne'] at this
      exact this
    rw [hs, one_mul] at y3 y4
    rw [List.map_map] at y1
    have hl : (0 : ℝ) ≤ ((row.map fun c : Int => F.ddiv (F.ofInt c) (F.ofInt row.sum)).length : ℝ) * ε := by positivity
    refine ⟨ys, y1, y2, le_trans (exp_le_exp.2 ?_) y3, y4.trans (exp_le_exp.2 ?_)⟩ <;> linarith

namespace System

variable {F : Rounding φ ε δ} {encode : Int → Str}

/-- **C88** Counts in arithmetic with rounding: what the theorems about the PPM model assume of them holds if the errors are below
one per cent, whatever `β` is configured below 0.99 (or that the default is taken). -/
theorem C88_counts (F : Rounding φ ε δ) (hε : ε ≤ 1 / 100) (h1 : δ ≤ 1 / 100) {o : Ppm.Options XR} {β : ℝ}
    (hβ : o.beta = .fin β) (hβ0 : 0 < β) (hβ1 : β < 99 / 100) :
    Ppm.CountLaws F.arith CountNear (Ppm.initParameters F.arith o).beta := by
  have hexp : exp ε ≤ 100 / 99 := by
    have : exp (-ε) ≥ 99 / 100 := by have := add_one_le_exp (-ε); linarith
    rw [exp_neg] at this
    have hp := exp_pos ε
    have := (le_inv_comm₀ (by norm_num) hp).1 this
    norm_num at this
    exact this
  have hslack : exp (slack δ) ≤ 100 / 99 := by
    unfold slack
    rw [exp_neg, exp_log (by linarith)]
    rw [inv_le_comm₀ (by linarith) (by norm_num)]
    norm_num
    linarith
  -- the parameter
  have hb : (Ppm.initParameters F.arith o).beta = .nan ∨ ∃ b : ℝ, (Ppm.initParameters F.arith o).beta = .fin b ∧ 0 < b ∧
      b * exp ε < 1 := by
    unfold Ppm.initParameters
    simp only
    split
    · have h3 := ValueNear.div F (δ := δ) (by linarith) (p := 3) (q := 4) (by norm_num) (by norm_num)
        (by have := ValueNear.ofInt F (δ := δ) (by linarith) (n := 3) (by norm_num); simpa using this)
        (by have := ValueNear.ofInt F (δ := δ) (by linarith) (n := 4) (by norm_num); simpa using this)
      rcases h3.pos (by norm_num) with h3' | ⟨b, hb, hbp, _⟩
      · exact .inl h3'.2
      · right
        refine ⟨b, hb, hbp, ?_⟩
        rcases h3 with h3 | ⟨y, e, _, hy⟩
        · rw [hb] at h3; cases h3.2
        · rw [hb, XR.fin.injEq] at e
          subst e
          have e3 : exp (slack δ + slack δ + slack δ) = exp (slack δ) ^ 3 := by
            rw [exp_add, exp_add]; ring
          rw [e3] at hy
          have hs0 := exp_pos (slack δ)
          have hp3 : exp (slack δ) ^ 3 ≤ (100 / 99) ^ 3 := pow_le_pow_left₀ hs0.le hslack 3
          calc b * exp ε ≤ (3 / 4 * (100 / 99) ^ 3) * (100 / 99) := by
                apply mul_le_mul _ hexp (exp_pos ε).le (by norm_num)
                linarith
            _ < 1 := by norm_num
    · right
      refine ⟨β, hβ, hβ0, ?_⟩
      have := exp_pos ε
      nlinarith
  refine ⟨.inr ⟨0, rfl, le_rfl⟩, ?_, ?_, ?_, by simp⟩
  · rintro c (rfl | ⟨x, rfl, hx⟩)
    · left
      have := F.nls_near .nan (.fin 0)
      exact near_nan this
    · have hn := F.nls_near (.fin x) (.fin 0)
      simp only [negLogSum] at hn
      cases hr : F.nls (.fin x) (.fin 0) with
      | nan => exact .inl hr
      | fin y =>
        rw [hr] at hn
        refine .inr ⟨y, hr, ?_⟩
        have hy := (abs_le.1 (show |y - -Real.log (exp (-x) + exp (-0))| ≤ ε from hn)).2
        have h2 : Real.log (exp (-x) + exp (-0)) ≥ 1 / 2 := by
          have e1 : (1 : ℝ) ≤ exp (-x) := one_le_exp (by linarith)
          have e2 : (2 : ℝ) ≤ exp (-x) + exp (-0) := by rw [neg_zero, exp_zero]; linarith
          have := Real.log_le_log (by norm_num) e2
          have h3 := Real.one_sub_inv_le_log_of_pos (x := 2) (by norm_num)
          norm_num at h3
          exact h3.trans this
        generalize Real.log (exp (-x) + exp (-0)) = L at hy h2
        linarith
      | pinf => rw [hr] at hn; exact absurd hn id
      | ninf => rw [hr] at hn; exact absurd hn id
  · rintro c (rfl | ⟨x, rfl, _⟩) <;> simp
  · intro c hc
    simp only [decide_eq_false_iff_not]
    have hcost : F.cost (Ppm.initParameters F.arith o).beta = .nan ∨
        ∃ y : ℝ, F.cost (Ppm.initParameters F.arith o).beta = .fin y ∧ 0 < y := by
      rcases hb with e | ⟨b, e, hbp, hb1⟩
      · left
        rw [e]
        exact near_nan (F.cost_near .nan)
      · rw [e]
        have hn := F.cost_near (.fin b)
        simp only [negLog, if_pos hbp] at hn
        cases hr : F.cost (.fin b) with
        | nan => exact .inl rfl
        | fin y =>
          rw [hr] at hn
          refine .inr ⟨y, rfl, ?_⟩
          have hy := (abs_le.1 (show |y - -Real.log b| ≤ ε from hn)).1
          have : Real.log (b * exp ε) < 0 := Real.log_neg (by positivity) hb1
          rw [Real.log_mul hbp.ne' (exp_pos ε).ne', Real.log_exp] at this
          linarith
        | pinf => rw [hr] at hn; exact absurd hn id
        | ninf => rw [hr] at hn; exact absurd hn id
    rcases hcost with e | ⟨y, e, hy⟩
    · rw [e]
      intro h
      exact h
    · rw [e]
      rcases hc with rfl | ⟨x, rfl, hx⟩
      · exact id
      · intro h
        have : y ≤ x := h
        linarith

/-- **C88** Behind the request handlers, over any loaded component models and after any requests: unless an exception flag
was raised (or the list is empty) the probabilities in every reply with scores are not negative and add up to one, within the factor `exp (K ε - 3 log (1 - δ))` for `K` symbols. -/
theorem C88_server {models : List (Component F.arith)} (hε : 0 ≤ ε) (h0 : 0 ≤ δ) (h1 : δ < 1)
    (hs : ∀ m ∈ models, Served encode m) :
    ∃ bound, ∀ fuel, bound ≤ fuel → ∀ orderN orderV, (env F.arith encode fuel orderN orderV).Fair →
      ∀ cfg reqs h, Server.Reach (env F.arith encode fuel orderN orderV) models cfg reqs h →
        ∀ ctx x r h', Server.getLMScores (env F.arith encode fuel orderN orderV) h ctx x = .ok (.ok r, h') →
          r.probs ≠ [] → (∀ p ∈ r.probs, p ≠ XR.nan) → OneWithin (r.probs.length * ε + 3 * slack δ) r.probs := by
  obtain ⟨bound, hb⟩ := served_live hs
  refine ⟨bound, fun fuel hfu orderN orderV hf cfg reqs h hr ctx x r h' he hne hn => ?_⟩
  obtain ⟨calls, hr⟩ := hr.hub
  have hc := closedOn F.arith encode fuel
  have ho := Hub.reach_own hf hc (hb fuel hfu) hr
  obtain ⟨r1, k1, e1, g1, v1, w1⟩ := Hub.contextLoop_ok hf ho.inv (if Server.toInt32 x < 0 then 0 else Server.toInt32 x) ctx
  have e1' : Hub.contextState (env F.arith encode fuel orderN orderV) h ctx (Server.toInt32 x) = .ok (r1, k1) := e1
  have ho1 : Hub.Own (live encode fuel) ok k1 :=
    ho.run_own hf hc (cs := [.context ctx (Server.toInt32 x)]) (by simp only [Hub.run, Hub.step, e1', ok_bind])
  simp only [Server.getLMScores, e1', ok_bind] at he
  cases hx : Hub.extractLMScores (env F.arith encode fuel orderN orderV) k1 r1 with
  | error f => rw [hx] at he; cases he
  | ok q =>
    obtain ⟨q, k2⟩ := q
    rw [hx, ok_bind] at he
    cases q with
    | none => cases he
    | some q =>
      simp only [Except.ok.injEq, Prod.mk.injEq] at he
      have : q = r := by have := he.1; cases this; rfl
      subst this
      exact (Hub.extract_shares ho1 (fun m m' s r => extract_shares) hx).one hε h0 h1 hne hn

end System
end Mozolm
