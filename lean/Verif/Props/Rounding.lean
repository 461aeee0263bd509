import Verif.Hub.Rounding
import Verif.Scores.Rounding
import Verif.Props.HubNumeric

/-!
# C88: mixing with rounding

For every arithmetic whose operations are accurate within `ε` on costs and `1 ± δ` on plain numbers (`Rounding ε δ`): how far
the weights and the probabilities of the hub can be from the exact ones.
-/

namespace Mozolm.Hub
open XR Scores Real

variable {φ : Prop} {ε δ : ℝ} {F : Rounding φ ε δ} {σ : Type} {env : Env F.arith σ}

/-- normalising weights that are near real numbers -/
theorem normalizeWeights_near (F : Rounding φ ε δ) (hε : 0 ≤ ε) {e : ℝ} {ws : List XR} {ps : List ℝ} (hl : ws.length = ps.length)
    (h : ∀ (k : Nat) (w : XR) (p : ℝ), ws[k]? = some w → ps[k]? = some p → CostNear φ e w p) (hs : 0 < ps.sum) :
    (normalizeWeights F.arith ws).length = ps.length ∧
    ∀ (k : Nat) (w : XR) (p : ℝ), (normalizeWeights F.arith ws)[k]? = some w → ps[k]? = some p →
      CostNear φ (2 * e + ps.length * ε) w (p / ps.sum) := by
  cases ws with
  | nil => simp only [List.length_nil] at hl; rw [List.length_eq_zero_iff.1 hl.symm] at hs; simp at hs
  | cons w ws =>
    cases ps with
    | nil => simp at hs
    | cons p ps =>
      have hl' : ws.length = ps.length := by simpa using hl
      have htot := CostNear.total F hε (ws.zip ps) (h 0 w p rfl rfl) (by
        intro x hx
        obtain ⟨k, hk⟩ := List.mem_iff_getElem?.1 hx
        rw [List.getElem?_zip_eq_some] at hk
        exact h (k + 1) x.1 x.2 (by simpa using hk.1) (by simpa using hk.2))
      rw [List.map_fst_zip (by omega), List.map_snd_zip (by omega)] at htot
      refine ⟨by simp [normalizeWeights, hl'], fun k x q hx hq => ?_⟩
      simp only [normalizeWeights, List.getElem?_map] at hx
      obtain ⟨v, hv, rfl⟩ := Option.map_eq_some_iff.1 hx
      rw [List.sum_cons]
      rw [List.sum_cons] at hs
      have := CostNear.over F (h k v q hv hq) htot hs
      refine this.mono (le_of_eq ?_)
      rw [List.length_zip, hl', min_self, List.length_cons, Nat.cast_succ]
      ring

theorem exp_total_pos {ws : List ℝ} (h : ws ≠ []) : 0 < (ws.map fun v => exp (-v)).sum := by
  cases ws with
  | nil => exact absurd rfl h
  | cons w ws =>
    simp only [List.map_cons, List.sum_cons]
    have h1 := exp_pos (-w)
    have h3 := sum_nonneg' (l := ws.map fun w => exp (-w)) fun p hp => by
      obtain ⟨w, _, rfl⟩ := List.mem_map.1 hp
      exact (exp_pos _).le
    linarith

/-- **C88** The weights of a hub with `n ≥ 2` finite configured weights are at all times the costs of `exp(-w_k) / Σ exp(-w_j)`
within `n ε`. -/
theorem C88_weights {models : List σ} {cfg : HubConfig XR} {calls : List Call} {h : Hub F.arith σ} (hε : 0 ≤ ε)
    (hf : env.Fair) (hr : Reach env models cfg calls h) (hmix : cfg.mixture = .interpolation)
    {ws : List ℝ} (hws : cfg.weights = ws.map XR.fin) (h2 : 2 ≤ ws.length) :
    h.weights.length = ws.length ∧
    ∀ (k : Nat) (x : XR) (w : ℝ), h.weights[k]? = some x → ws[k]? = some w →
      CostNear φ (ws.length * ε) x (exp (-w) / (ws.map fun v => exp (-v)).sum) := by
  have g := reach_good hf hr
  have hw : h.weights = cfgWeights (A := F.arith) cfg := g.const.weights
  have hw' : h.weights = normalizeWeights F.arith (ws.map XR.fin) := by
    rw [hw]
    unfold cfgWeights
    rw [if_pos ⟨hmix, by rw [hws]; simpa using h2⟩, hws]
  have hne : ws ≠ [] := by intro e; simp [e] at h2
  obtain ⟨n1, n2⟩ := normalizeWeights_near F hε (e := 0) (ws := ws.map XR.fin) (ps := ws.map fun v => exp (-v)) (by simp) (by
    intro k w p hk hp
    rw [List.getElem?_map] at hk hp
    obtain ⟨v, hv, rfl⟩ := Option.map_eq_some_iff.1 hk
    rw [hv, Option.map_some, Option.some.injEq] at hp
    subst hp
    exact CostNear.self) (exp_total_pos hne)
  rw [← hw'] at n1 n2
  refine ⟨by simpa using n1, fun k x w hx hk => ?_⟩
  have := n2 k x (exp (-w)) hx (by rw [List.getElem?_map, hk]; rfl)
  simpa using this

/-- **C88** At an existing state, let the weights in force be those of `rs` within `eW`, and let the components answer with the
probabilities of `rs` within the factor `exp d`, each symbol being offered at most `N` times.  Then the hub answers, the symbols
are exactly those offered, in byte order, and each probability is the weighted average divided by the total, within the factor
`exp E` with `E = 2 (d + eW + (2 + N) ε) + K ε - log (1 - δ)` for `K` symbols, unless an exception flag was raised. -/
theorem C88_average (hε : 0 ≤ ε) (h1 : δ < 1) (hf : env.Fair) (h : Hub F.arith σ) {s : Int} (hv : h.valid s = true)
    (hw : 2 ≤ h.weights.length) {st : HubState XR} (hst : h.states[s.toNat]? = some st) {rs : List Share}
    (hnn : ∀ r ∈ rs, 0 ≤ r.1 ∧ ∀ e ∈ r.2, 0 ≤ e.2) {ws : List XR} {eW d : ℝ} {N : Nat}
    (hws : getMixtureWeights h s true = .ok ws) (hwl : ws.length = rs.length)
    (hwn : ∀ (k : Nat) (w : XR) (r : Share), ws[k]? = some w → rs[k]? = some r → CostNear φ eW w r.1)
    (hans : AnswersNear d env st 0 h.models rs) (hN : ∀ sym, offers rs sym ≤ N) (hpos : 0 < total rs) :
    ∃ res h', extractLMScores env h s = .ok (some res, h') ∧ res.symbols.Pairwise byteLt ∧
      (∀ sym, sym ∈ res.symbols ↔ ∃ r ∈ rs, ∃ e ∈ r.2, e.1 = sym) ∧ res.probs.length = res.symbols.length ∧
      ∀ (i : Nat) (sym : Str) (x : XR), res.symbols[i]? = some sym → res.probs[i]? = some x →
        ValueNear φ (2 * (d + eW + (2 + N) * ε) + res.symbols.length * ε + slack δ) x (mass rs sym / total rs) := by
  have hrep0 : RepNear φ ε (d + eW + 2 * ε) (fun _ => 0) [] [] (fun _ => (0 : ℝ)) :=
    ⟨rfl, List.nodup_nil, fun _ => le_refl _, fun _ he => (nomatch he), fun _ _ => rfl⟩
  obtain ⟨acc, nrm, ms, ks, e1, e2, e3⟩ :=
    extractLoop_near (F := F) hε (i := 0) (nrm := F.arith.ofInt 0) hnn hwl hwn hans hrep0
  simp only [zero_add] at e2
  have hnear : ∀ e ∈ acc, CostNear φ (d + eW + (2 + N) * ε) e.2 (mass rs e.1) := fun e he => by
    refine (e2.near e he).mono ?_
    have h5 : ((offers rs e.1 : Nat) : ℝ) ≤ N := by exact_mod_cast hN e.1
    nlinarith
  refine ⟨extractMixture env acc nrm, { h with models := ms }, ?_, ?_⟩
  · unfold extractLMScores
    rw [if_neg (by simp [hv]), hst]
    simp only
    rw [if_neg (by omega), hws]
    simp only [ok_bind]
    rw [e1]
    rfl
  have hperm : (env.orderV acc).Perm acc := hf.2 acc
  have hkeys : acc.map Prod.fst = ks := e2.keys
  have hkn : ((env.orderV acc).map Prod.fst).Nodup := by
    rw [(hperm.map _).nodup_iff, hkeys]; exact e2.nodup
  have htot : (((env.orderV acc).map Prod.fst).map (mass rs)).sum = total rs := by
    rw [((hperm.map Prod.fst).map _).sum_eq, hkeys]
    refine sum_mass e2.nodup fun r hr e he => ?_
    exact (e3 e.1).2 (.inr ⟨r, hr, List.mem_map_of_mem he⟩)
  have hsorted := sortValues_sorted (env.orderV acc) hkn
  have hsp := sortValues_perm (env.orderV acc)
  have hsym : (extractMixture env acc nrm).symbols = (sortValues (env.orderV acc)).map Prod.fst := by
    unfold extractMixture
    cases hvs : env.orderV acc with
    | nil => simp [sortValues]
    | cons v rest => rfl
  refine ⟨?_, ?_, ?_, ?_⟩
  · rw [hsym, List.pairwise_map]; exact hsorted
  · intro sym
    rw [hsym, (hsp.map Prod.fst).mem_iff, (hperm.map Prod.fst).mem_iff, hkeys, e3]
    simp
  · unfold extractMixture
    cases hvs : env.orderV acc with
    | nil => simp
    | cons v rest => simp
  · intro i sym x hi hx
    rw [hsym] at hi
    have hlen : (extractMixture env acc nrm).symbols.length = (env.orderV acc).length := by
      rw [hsym, List.length_map, hsp.length_eq]
    rw [hlen]
    cases hvs : env.orderV acc with
    | nil => rw [hvs] at hi; simp [sortValues] at hi
    | cons v rest =>
      have hp' : (extractMixture env acc nrm).probs = (sortValues (v :: rest)).map fun e =>
          F.prob (F.over e.2 (negLogSumFrom F.arith v.2 (rest.map Prod.snd))) := by
        unfold extractMixture
        rw [hvs]
      rw [hp', List.getElem?_map] at hx
      rw [hvs, List.getElem?_map] at hi
      obtain ⟨e, he, rfl⟩ := Option.map_eq_some_iff.1 hx
      rw [he, Option.map_some, Option.some.injEq] at hi
      rw [hvs] at hsp htot hperm
      have hem : e ∈ acc := hperm.mem_iff.1 (hsp.mem_iff.1 (List.mem_of_getElem? he))
      have ht := CostNear.total F hε (rest.map fun e => (e.2, mass rs e.1)) (hnear v (hperm.mem_iff.1 (by simp))) (by
        intro y hy
        obtain ⟨z, hz, rfl⟩ := List.mem_map.1 hy
        exact hnear z (hperm.mem_iff.1 (by simp [hz])))
      rw [List.map_map, List.map_map, List.length_map] at ht
      have q1 : (rest.map (Prod.fst ∘ fun e => (e.2, mass rs e.1))) = rest.map Prod.snd := rfl
      have q2 : mass rs v.1 + (rest.map (Prod.snd ∘ fun e => (e.2, mass rs e.1))).sum = total rs := by
        rw [← htot]; simp [Function.comp_def]
      rw [q1, q2] at ht
      have := CostNear.prob F h1 (CostNear.over F (hnear e hem) ht hpos)
      rw [← hi]
      refine this.mono (div_nonneg (e2.nonneg _) hpos.le) (le_of_eq ?_)
      rw [List.length_cons, Nat.cast_succ]
      ring

end Mozolm.Hub
