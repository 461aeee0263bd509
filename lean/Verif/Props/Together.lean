import Verif.System.TogetherSpec
import Verif.System.Mates
import Verif.System.Sound
import Verif.Server.Shadow
import Verif.Props.SystemUpdate
import Verif.Props.Directory
import Verif.Props.HubNumeric
import Verif.Hub.Answer

/-!
# C104: a server with several models and servers with each of them
-/

namespace Mozolm.System
open Mozolm.Hub Mozolm.Server

section
variable {A : Arith} {encode : Int → Str} {fuel : Nat} {orderN : List (Int × Nat) → List (Int × Nat)} {orderV : List (Str × A.C) → List (Str × A.C)}
  {models : List (Component A)} {cfg : HubConfig A.C} {reqs : List Request} {h : Hub A (Component A)}

theorem initial_shadow {m : Component A} {j : Nat} (hl : live encode fuel m) (hm : models[j]? = some m) {ws ws' : List A.C} (hj : j < ws.length)
    (hw : ws'.length = 1) (hlen max : Nat) :
    Shadow (Mated encode fuel) (Matching encode fuel) models.length j (initial (env A encode fuel orderN orderV) models ws hlen max)
      (initial (env A encode fuel orderN orderV) [m] ws' 0 max) :=
  ⟨m, m, hm, rfl, .refl hl,
    .cons (StShadow.mk' (x := start m) (y := start m) (by simp) (by simp [hm]; rfl) rfl ((mates A encode fuel).start (.refl hl)) _ _ _ _) .nil, rfl, rfl, rfl, rfl, hw, hj⟩

/-- the condition on the room -/
theorem roomy_of {r : Request} (hf : (env A encode fuel orderN orderV).Fair) (hr : Server.Reach (env A encode fuel orderN orderV) models cfg reqs h) (ht : Server.Typed reqs)
    (hroom : cfg.bayesianHistoryLength ≤ 0 ∨ (directory (reqs ++ [r])).length ≤ cfgMax cfg) : Roomy h r := by
  rcases hroom with h0 | h0
  · left
    obtain ⟨calls, hc⟩ := hr.hub
    rw [(Hub.reach_good hf hc).const.hlen]
    show cfgHlen cfg = 0
    unfold cfgHlen
    split
    · omega
    · rfl
  · right
    rw [directory_snoc] at h0
    have hle : (directory reqs).length ≤ (visited (directory reqs) r).length := by
      cases r with
      | getNextState ctx s => exact (visits_prefix _ _ _).length_le
      | getLMScores ctx s => exact (visits_prefix _ _ _).length_le
      | updateLMScores s cs n => exact ((visits_prefix _ _ _).trans (visits_prefix _ _ _)).length_le
    obtain ⟨a1, a2, a3⟩ := hr.indexed hf ht (by omega)
    exact ⟨_, a1, by omega⟩

/-- the server with one of the models goes along -/
theorem shadow_reach (hf : (env A encode fuel orderN orderV).Fair) (hl : ∀ m ∈ models, live encode fuel m) {j : Nat} {m : Component A} (hm : models[j]? = some m)
    (hj : j < (cfgWeights cfg).length) (reqs : List Request) : ∀ {h : Hub A (Component A)}, Server.Reach (env A encode fuel orderN orderV) models cfg reqs h →
    Server.Typed reqs → (cfg.bayesianHistoryLength ≤ 0 ∨ (directory reqs).length ≤ cfgMax cfg) →
    ∃ g, Server.Reach (env A encode fuel orderN orderV) [m] (solo cfg) reqs g ∧
      Shadow (Mated encode fuel) (Matching encode fuel) models.length j h g := by
  induction reqs using List.reverseRecOn with
  | nil =>
    intro h hr ht _
    obtain ⟨h0, e0, e1⟩ := hr
    cases e1
    rw [initialize_eq hf] at e0
    split at e0
    · cases e0
    · cases e0
      refine ⟨initial (env A encode fuel orderN orderV) [m] [A.one] 0 (cfgMax cfg), ⟨_, ?_, rfl⟩, initial_shadow (hl m (List.mem_of_getElem? hm)) hm hj rfl _ _⟩
      rw [initialize_eq hf]
      rfl
  | append_singleton reqs r ih =>
    intro h hr ht hroom
    obtain ⟨h0, e0, e1⟩ := hr
    rw [serveAll_snoc] at e1
    obtain ⟨h1, e2, e3⟩ := bind_ok.1 e1
    have hr1 : Server.Reach (env A encode fuel orderN orderV) models cfg reqs h1 := ⟨h0, e0, e2⟩
    have ht1 : Server.Typed reqs := fun q hq => ht q (by simp [hq])
    have hroom1 : cfg.bayesianHistoryLength ≤ 0 ∨ (directory reqs).length ≤ cfgMax cfg := by
      rcases hroom with h0 | h0
      · exact .inl h0
      · right
        rw [directory_snoc] at h0
        refine Nat.le_trans ?_ h0
        cases r with
        | getNextState ctx s => exact (visits_prefix _ _ _).length_le
        | getLMScores ctx s => exact (visits_prefix _ _ _).length_le
        | updateLMScores s cs n => exact ((visits_prefix _ _ _).trans (visits_prefix _ _ _)).length_le
    obtain ⟨g1, ⟨g0, f0, f1⟩, hs⟩ := ih hr1 ht1 hroom1
    obtain ⟨calls, hc⟩ := hr1.hub
    have ho := Hub.reach_own hf (closedOn A encode fuel) hl hc
    obtain ⟨g, f2, hs2⟩ := shadow_serve (env := env A encode fuel orderN orderV) (mates A encode fuel) hf (closedOn A encode fuel)
      (fun m s cs c h1 h2 => update_accepted h1 h2 cs c) ho hs (ht r (by simp)) (roomy_of hf hr1 ht1 hroom) h e3
    exact ⟨g, ⟨g0, f0, by rw [serveAll_snoc, f1]; exact f2⟩, hs2⟩

/-- **C104** After the same requests, updates included, a server with several models and a server with only one of those it mixes
reply with the same state ids. -/
theorem C104_states (hs : ∀ m ∈ models, Served encode m) :
    ∃ bound, ∀ fuel, bound ≤ fuel → ∀ orderN orderV, (env A encode fuel orderN orderV).Fair →
      ∀ cfg reqs h, Server.Reach (env A encode fuel orderN orderV) models cfg reqs h → Server.Typed reqs →
        (cfg.bayesianHistoryLength ≤ 0 ∨ (directory reqs).length ≤ cfgMax cfg) →
        ∀ j m, models[j]? = some m → j = 0 ∨ (cfg.mixture = .interpolation ∧ 2 ≤ cfg.weights.length ∧ j < cfg.weights.length) →
        ∃ g, Server.Reach (env A encode fuel orderN orderV) [m] (solo cfg) reqs g ∧
          ∀ ctx x, ∃ k, Directs (env A encode fuel orderN orderV) h ctx x k ∧ Directs (env A encode fuel orderN orderV) g ctx x k := by
  obtain ⟨bound, hb⟩ := served_live hs
  refine ⟨bound, fun fuel hfu orderN orderV hf cfg reqs h hr ht hroom j m hm hj => ?_⟩
  have hj' : j < (cfgWeights cfg).length := by
    unfold cfgWeights
    split
    · next hc => rw [normalizeWeights_length]; omega
    · next hc => rcases hj with rfl | hj
                 · simp
                 · exact absurd ⟨hj.1, hj.2.1⟩ hc
  obtain ⟨g, hg, hsh⟩ := shadow_reach hf (hb fuel hfu) hm hj' reqs hr ht hroom
  refine ⟨g, hg, fun ctx x => ?_⟩
  obtain ⟨calls, hc⟩ := hr.hub
  have ho := Hub.reach_own hf (closedOn A encode fuel) (hb fuel hfu) hc
  obtain ⟨k, h1, e1, _⟩ := contextLoop_ok hf ho.inv (if toInt32 x < 0 then 0 else toInt32 x) ctx
  obtain ⟨⟨k', g1⟩, f1, f2, f3⟩ := hsh.contextState (mates A encode fuel) ctx (toInt32 x) (k, h1) e1
  simp only at f2
  subst f2
  exact ⟨k, ⟨h1, bind_ok.2 ⟨_, e1, rfl⟩⟩, ⟨g1, bind_ok.2 ⟨_, f1, rfl⟩⟩⟩

end

/-! ## Replies -/

section
variable {A : Arith} {encode : Int → Str} {fuel : Nat} {orderN : List (Int × Nat) → List (Int × Nat)} {orderV : List (Str × A.C) → List (Str × A.C)}
  {models : List (Component A)} {cfg : HubConfig A.C} {reqs : List Request} {h : Hub A (Component A)}

/-- A request for scores comes down to asking at some state, unless an update is not accepted. -/
theorem request_scores (hf : (env A encode fuel orderN orderV).Fair) (hl : ∀ m ∈ models, live encode fuel m)
    (hr : Server.Reach (env A encode fuel orderN orderV) models cfg reqs h) {r : Request} (hcs : ∀ c ∈ r.text, 0 ≤ c) (hroom : Roomy h r)
    (hq : ∀ ctx s, r ≠ .getNextState ctx s) (hdone : ∃ h', serve (env A encode fuel orderN orderV) h r = .ok h') :
    ((∀ h', serve (env A encode fuel orderN orderV) h r = .ok h' → Refused (env A encode fuel orderN orderV) h r) ∧
      ∀ j m g, models[j]? = some m → Shadow (Mated encode fuel) (Matching encode fuel) models.length j h g → Refused (env A encode fuel orderN orderV) g r) ∨
    ∃ s h1, (∃ calls, Hub.Reach (env A encode fuel orderN orderV) models cfg calls h1) ∧
      (∀ y h', extractLMScores (env A encode fuel orderN orderV) h1 s = .ok (some y, h') → Answered (env A encode fuel orderN orderV) h r y) ∧
      (∀ h', extractLMScores (env A encode fuel orderN orderV) h1 s = .ok (none, h') → Refused (env A encode fuel orderN orderV) h r) ∧
      (∃ y h', extractLMScores (env A encode fuel orderN orderV) h1 s = .ok (y, h')) ∧
      ∀ j g, Shadow (Mated encode fuel) (Matching encode fuel) models.length j h g →
        ∃ g1, Shadow (Mated encode fuel) (Matching encode fuel) models.length j h1 g1 ∧
          (∀ y, Answered (env A encode fuel orderN orderV) g r y → ∃ g', extractLMScores (env A encode fuel orderN orderV) g1 s = .ok (some y, g')) ∧
          (Refused (env A encode fuel orderN orderV) g r → ∃ g', extractLMScores (env A encode fuel orderN orderV) g1 s = .ok (none, g')) := by
  obtain ⟨h9, he⟩ := hdone
  obtain ⟨calls, hc⟩ := hr.hub
  have ho := Hub.reach_own hf (closedOn A encode fuel) hl hc
  cases r with
  | getNextState ctx s => exact absurd rfl (hq ctx s)
  | getLMScores ctx x =>
    right
    obtain ⟨⟨y, h2⟩, e1, e2⟩ := bind_ok.1 he
    obtain ⟨⟨k, h3⟩, e3, e4⟩ := bind_ok.1 e1
    obtain ⟨⟨z, h4⟩, e5, e6⟩ := bind_ok.1 e4
    simp only at e5
    refine ⟨k, h3, ?_, ?_, ?_, ⟨z, h4, e5⟩, ?_⟩
    · obtain ⟨h0, i0, i1⟩ := hc
      exact ⟨calls ++ [.context ctx (toInt32 x)], h0, i0, by rw [Server.run_append, i1, ok_bind]; simp only [run, step, e3, ok_bind]⟩
    · intro y h' hy
      exact ⟨h', by simp only [getLMScores, e3, ok_bind, hy]⟩
    · intro h' hy
      exact ⟨h', by simp only [getLMScores, e3, ok_bind, hy]⟩
    · intro j g hs
      obtain ⟨⟨k', g3⟩, f3, f4, f5⟩ := hs.contextState (env := env A encode fuel orderN orderV) (mates A encode fuel) ctx (toInt32 x) _ e3
      simp only at f4 f5
      subst f4
      refine ⟨g3, f5, ?_, ?_⟩
      · rintro y ⟨g', hg⟩
        simp only [getLMScores, f3, ok_bind] at hg
        obtain ⟨⟨z', g4⟩, b1, b2⟩ := bind_ok.1 hg
        cases z' with
        | none => cases b2
        | some z' => cases b2; exact ⟨_, b1⟩
      · rintro ⟨g', hg⟩
        simp only [getLMScores, f3, ok_bind] at hg
        obtain ⟨⟨z', g4⟩, b1, b2⟩ := bind_ok.1 hg
        cases z' with
        | none => exact ⟨_, b1⟩
        | some z' => cases b2
  | updateLMScores x cs c =>
    have hcs' : ∀ c ∈ cs, 0 ≤ c := hcs
    obtain ⟨⟨y, h2⟩, e1, e2⟩ := bind_ok.1 he
    obtain ⟨⟨w, ha⟩, e3, e4⟩ := bind_ok.1 e1
    obtain ⟨⟨u, hb⟩, e5, e6⟩ := bind_ok.1 e4
    have hsh : ∀ j g, Shadow (Mated encode fuel) (Matching encode fuel) models.length j h g →
        ∃ ga gb, Server.walk (env A encode fuel orderN orderV) g (toInt32 x) cs = .ok (w, ga) ∧
          updateLMCounts (env A encode fuel orderN orderV) ga (toInt32 x) cs c = .ok (u, gb) ∧
          Shadow (Mated encode fuel) (Matching encode fuel) models.length j hb gb := by
      intro j g hs
      obtain ⟨⟨w', ga⟩, f1, f2, f3⟩ := shadow_count (env := env A encode fuel orderN orderV) (mates A encode fuel) hf (closedOn A encode fuel)
        (fun m s cs c h1 h2 => update_accepted h1 h2 cs c) ho hs hcs' hroom e3
      obtain ⟨⟨u', gb⟩, f4, f5, f6⟩ := f3 _ e5
      simp only at f2 f5 f6 f4
      subst f2 f5
      exact ⟨ga, gb, f1, f4, f6⟩
    cases u with
    | false =>
      left
      refine ⟨fun _ _ => ⟨hb, by simp only [updateLMScores, e3, ok_bind, e5]; rfl⟩, fun j m g _ hs => ?_⟩
      obtain ⟨ga, gb, f1, f2, _⟩ := hsh j g hs
      exact ⟨gb, by simp only [updateLMScores, f1, ok_bind, f2]; rfl⟩
    | true =>
      right
      simp only [if_true] at e6
      obtain ⟨⟨z, h4⟩, e7, e8⟩ := bind_ok.1 e6
      refine ⟨w, hb, ?_, ?_, ?_, ⟨z, h4, e7⟩, ?_⟩
      · obtain ⟨calls1, k1⟩ := walk_calls e3
        obtain ⟨h0, i0, i1⟩ := hc
        exact ⟨calls ++ (calls1 ++ [.update (toInt32 x) cs c]), h0, i0, by
          rw [Server.run_append, i1, ok_bind, Server.run_append, k1, ok_bind]
          simp only at e5
          simp only [run, step, e5, ok_bind]⟩
      · intro y h' hy
        exact ⟨h', by simp only [updateLMScores, e3, ok_bind, e5, if_true, hy]⟩
      · intro h' hy
        exact ⟨h', by simp only [updateLMScores, e3, ok_bind, e5, if_true, hy]⟩
      · intro j g hs
        obtain ⟨ga, gb, f1, f2, f3⟩ := hsh j g hs
        refine ⟨gb, f3, ?_, ?_⟩
        · rintro y ⟨g', hg⟩
          simp only [updateLMScores, f1, ok_bind, f2, if_true] at hg
          obtain ⟨⟨z', g4⟩, b1, b2⟩ := bind_ok.1 hg
          cases z' with
          | none => cases b2
          | some z' => cases b2; exact ⟨_, b1⟩
        · rintro ⟨g', hg⟩
          simp only [updateLMScores, f1, ok_bind, f2, if_true] at hg
          obtain ⟨⟨z', g4⟩, b1, b2⟩ := bind_ok.1 hg
          cases z' with
          | none => exact ⟨_, b1⟩
          | some z' => cases b2

/-- without history lengths every request is completed -/
theorem serves {models : List (Component A)} (hs : ∀ m ∈ models, Served encode m) (hm : 0 < models.length) :
    ∃ bound, ∀ fuel, bound ≤ fuel → ∀ orderN orderV, (env A encode fuel orderN orderV).Fair →
      ∀ cfg reqs h, (cfg.mixture = .interpolation → cfg.weights.length ≤ models.length) → cfg.bayesianHistoryLength ≤ 0 →
        Server.Reach (env A encode fuel orderN orderV) models cfg reqs h → ∀ r, ∃ h', serve (env A encode fuel orderN orderV) h r = .ok h' := by
  obtain ⟨b1, hb1⟩ := C72_calls_complete hs hm
  obtain ⟨b2, hb2⟩ := served_live hs
  refine ⟨max b1 b2, fun fuel hfu orderN orderV hf cfg reqs h hcfg hbh hr r => ?_⟩
  obtain ⟨calls, hc⟩ := hr.hub
  have stp : ∀ calls h, Hub.Reach (env A encode fuel orderN orderV) models cfg calls h → ∀ call, ∃ h', Hub.step (env A encode fuel orderN orderV) h call = .ok h' ∧
      Hub.Reach (env A encode fuel orderN orderV) models cfg (calls ++ [call]) h' := by
    intro calls h hr call
    obtain ⟨h', e⟩ := hb1 fuel (by omega) orderN orderV hf cfg calls h hcfg hr call (fun _ _ _ _ => .inl hbh)
    obtain ⟨h0, i0, i1⟩ := hr
    exact ⟨h', e, h0, i0, by rw [Server.run_append, i1, ok_bind]; simp only [run, e, ok_bind]⟩
  cases r with
  | getNextState ctx x =>
    obtain ⟨h1, e1, _⟩ := stp calls h hc (.context ctx (toInt32 x))
    obtain ⟨a, e2, _⟩ := bind_ok.1 e1
    exact ⟨a.2, by simp only [serve, getNextState, e2, ok_bind]⟩
  | getLMScores ctx x =>
    obtain ⟨h1, e1, r1⟩ := stp calls h hc (.context ctx (toInt32 x))
    obtain ⟨a, e2, e3⟩ := bind_ok.1 e1
    cases e3
    obtain ⟨h2, e4, _⟩ := stp _ _ r1 (.extract a.1)
    obtain ⟨⟨z, b⟩, e5, _⟩ := bind_ok.1 e4
    refine ⟨b, ?_⟩
    simp only [serve, getLMScores, e2, ok_bind, e5]
    cases z <;> rfl
  | updateLMScores x cs c =>
    have ho := Hub.reach_own hf (closedOn A encode fuel) (hb2 fuel (by omega)) hc
    obtain ⟨w, h1, e1, _⟩ := walk_ok hf ho.inv (toInt32 x) cs
    obtain ⟨calls1, f1⟩ := walk_calls e1
    have r1 : Hub.Reach (env A encode fuel orderN orderV) models cfg (calls ++ calls1) h1 := by
      obtain ⟨h0, i0, i1⟩ := hc
      exact ⟨h0, i0, by rw [Server.run_append, i1, ok_bind]; exact f1⟩
    obtain ⟨h2, e2, r2⟩ := stp _ _ r1 (.update (toInt32 x) cs c)
    obtain ⟨⟨u, h3⟩, e3, e4⟩ := bind_ok.1 e2
    cases e4
    obtain ⟨h4, e5, _⟩ := stp _ _ r2 (.extract w)
    obtain ⟨⟨z, b⟩, e6, _⟩ := bind_ok.1 e5
    cases u with
    | false => exact ⟨h3, by simp only [serve, updateLMScores, e1, ok_bind, e3]; rfl⟩
    | true =>
      refine ⟨b, ?_⟩
      simp only at e6
      simp only [serve, updateLMScores, e1, ok_bind, e3, if_true, e6]
      cases z <;> rfl

end

variable {encode : Int → Str} {models : List (Component Arith.xr)}

/-- **C104** The weights are `ws`, one for each model, and not adapted. After any requests, updates included: if servers with
each of the models alone, after the same requests, answer a further request with the symbols and probabilities listed in `rs`,
the server with all of them answers it with their mixture; and it refuses what one of them refuses. -/
theorem C104_mixture (hs : ∀ m ∈ models, Served encode m) :
    ∃ bound, ∀ fuel, bound ≤ fuel → ∀ orderN orderV, (env Arith.xr encode fuel orderN orderV).Fair →
      ∀ (cfg : HubConfig XR) reqs h (ws : List ℝ), cfg.mixture = .interpolation → cfg.weights = ws.map XR.fin → ws.length = models.length →
        2 ≤ ws.length → cfg.bayesianHistoryLength ≤ 0 → Server.Reach (env Arith.xr encode fuel orderN orderV) models cfg reqs h → Server.Typed reqs →
        ∀ req : Request, (∀ c ∈ req.text, 0 ≤ c) → (∀ ctx x, req ≠ .getNextState ctx x) →
        (∀ rs : List Share, rs.map Prod.fst = ws.map (fun w => Real.exp (-w) / (ws.map fun v => Real.exp (-v)).sum) →
          (∀ r ∈ rs, ∀ e ∈ r.2, 0 ≤ e.2) → 0 < Hub.total rs →
          (∀ (j : Nat) m r, models[j]? = some m → rs[j]? = some r → ∃ g nrm,
            Server.Reach (env Arith.xr encode fuel orderN orderV) [m] (solo cfg) reqs g ∧
            Answered (env Arith.xr encode fuel orderN orderV) g req ⟨r.2.map Prod.fst, r.2.map fun e => XR.fin e.2, nrm⟩) →
          ∃ res, Answered (env Arith.xr encode fuel orderN orderV) h req res ∧ Mixes rs res) ∧
        (∀ m ∈ models, ∀ g, Server.Reach (env Arith.xr encode fuel orderN orderV) [m] (solo cfg) reqs g →
          Refused (env Arith.xr encode fuel orderN orderV) g req → Refused (env Arith.xr encode fuel orderN orderV) h req) := by
  by_cases hm0 : 0 < models.length
  swap
  · exact ⟨0, fun _ _ _ _ _ cfg reqs h ws _ _ h1 h2 => by omega⟩
  obtain ⟨b1, hb1⟩ := served_live hs
  obtain ⟨b2, hb2⟩ := serves hs hm0
  refine ⟨max b1 b2, fun fuel hfu orderN orderV hf cfg reqs h ws hmix hws hlen h2 hbh hr ht req hcs hq => ?_⟩
  have hl := hb1 fuel (by omega)
  have hwl : (cfgWeights (A := Arith.xr) cfg).length = models.length := by
    unfold cfgWeights
    rw [if_pos ⟨hmix, by rw [hws]; simpa using h2⟩, normalizeWeights_length, hws]
    simpa using hlen
  -- the servers with one model
  have hone : ∀ (j : Nat) m g, models[j]? = some m → Server.Reach (env Arith.xr encode fuel orderN orderV) [m] (solo cfg) reqs g →
      Shadow (Mated encode fuel) (Matching encode fuel) models.length j h g := by
    intro j m g hj hg
    obtain ⟨g', hg', hsh⟩ := shadow_reach hf hl hj (by rw [hwl]; exact lt_of_getElem?_eq_some hj) reqs hr ht (.inl hbh)
    obtain ⟨g0, i0, i1⟩ := hg
    obtain ⟨g0', i0', i1'⟩ := hg'
    rw [i0] at i0'; cases i0'
    rw [i1] at i1'; cases i1'
    exact hsh
  have hdone := hb2 fuel (by omega) orderN orderV hf cfg reqs h (fun _ => by rw [hws]; simp; omega) hbh hr req
  have hroom : Roomy h req := roomy_of hf hr ht (.inl hbh)
  rcases request_scores hf hl hr hcs hroom hq hdone with ⟨ref1, ref2⟩ | ⟨s, h1, ⟨calls, hr1⟩, k1, k2, ⟨y0, h0', k3⟩, k4⟩
  · obtain ⟨h9, e9⟩ := hdone
    refine ⟨fun rs _ _ _ hall => ?_, fun m _ g _ _ => ref1 h9 e9⟩
    exfalso
    rename_i hmap hnn htot
    obtain ⟨m, hm⟩ := exists_getElem?_of_lt (l := models) (i := 0) hm0
    have hrl : rs.length = ws.length := by have := congrArg List.length hmap; simpa using this
    obtain ⟨r, hr0⟩ := exists_getElem?_of_lt (l := rs) (i := 0) (by omega)
    obtain ⟨g, nrm, hg, hans⟩ := hall 0 m r hm hr0
    have href := ref2 0 m g hm (hone 0 m g hm hg)
    cases req with
    | getNextState ctx x => exact hans
    | getLMScores ctx x => obtain ⟨a, e⟩ := hans; obtain ⟨b, e'⟩ := href; rw [e] at e'; cases e'
    | updateLMScores x cs c => obtain ⟨a, e⟩ := hans; obtain ⟨b, e'⟩ := href; rw [e] at e'; cases e'
  · constructor
    · intro rs hmap hnn htot hall
      have hrl : rs.length = models.length := by have := congrArg List.length hmap; simp at this; omega
      -- the state asked for exists
      have hsays : ∀ (j : Nat) m r, models[j]? = some m → rs[j]? = some r → ∃ g1 g' nrm, Shadow (Mated encode fuel) (Matching encode fuel) models.length j h1 g1 ∧
          extractLMScores (env Arith.xr encode fuel orderN orderV) g1 s = .ok (some ⟨r.2.map Prod.fst, r.2.map fun e => XR.fin e.2, nrm⟩, g') := by
        intro j m r hm hr
        obtain ⟨g, nrm, hg, hans⟩ := hall j m r hm hr
        obtain ⟨g1, a1, a2, _⟩ := k4 j g (hone j m g hm hg)
        obtain ⟨g', a4⟩ := a2 _ hans
        exact ⟨g1, g', nrm, a1, a4⟩
      obtain ⟨m, hm⟩ := exists_getElem?_of_lt (l := models) (i := 0) hm0
      obtain ⟨r, hr0⟩ := exists_getElem?_of_lt (l := rs) (i := 0) (by omega)
      have hv : h1.valid s = true := by
        obtain ⟨g1, g', nrm, a1, a2⟩ := hsays 0 m r hm hr0
        cases hv : h1.valid s with
        | true => rfl
        | false => rw [(a1.says (env := env Arith.xr encode fuel orderN orderV) (mates _ _ _) s).1 hv] at a2; cases a2
      obtain ⟨st, hst⟩ := exists_getElem?_of_lt (l := h1.states) (i := s.toNat) (by
        simp only [Hub.valid, Bool.and_eq_true, decide_eq_true_eq] at hv; omega)
      have hgood := Hub.reach_good hf hr1
      have hml : h1.models.length = models.length := hgood.const.models.length_eq.symm
      obtain ⟨hwt, _⟩ := C09_weights hf hr1 hmix hws h2
      have hhl : h1.hlen = 0 := by
        rw [hgood.const.hlen]
        show cfgHlen (A := Arith.xr) cfg = 0
        unfold cfgHlen
        split
        · omega
        · rfl
      have hw : getMixtureWeights h1 s true = .ok (rs.map fun r => XR.costOf r.1) := by
        unfold getMixtureWeights
        rw [if_pos (by simp [hhl]), hwt]
        have : rs.map (fun r => XR.costOf r.1) = (rs.map Prod.fst).map XR.costOf := by rw [List.map_map]; rfl
        rw [this, hmap, List.map_map]
        rfl
      have hans : Answers (env Arith.xr encode fuel orderN orderV) st 0 h1.models rs := by
        refine ⟨by omega, fun i m' r hm' hr' => ?_⟩
        obtain ⟨m, hm⟩ := exists_getElem?_of_lt (l := models) (i := i) (by have := lt_of_getElem?_eq_some hm'; omega)
        obtain ⟨g1, g', nrm, a1, a2⟩ := hsays i m r hm hr'
        obtain ⟨m2, g2, b1, b2, _⟩ := (a1.says (env := env Arith.xr encode fuel orderN orderV) (mates _ _ _) s).2 st hv hst
        rw [hm'] at b1; cases b1
        rw [a2] at b2
        rw [Nat.zero_add]
        simp only [Except.ok.injEq, Prod.mk.injEq] at b2
        exact ⟨_, nrm, Prod.ext b2.1.symm rfl⟩
      have hpos := exp_sum_pos (ws := ws) h2
      have hsn : ∀ r ∈ rs, 0 ≤ r.1 ∧ ∀ e ∈ r.2, 0 ≤ e.2 := by
        intro r hr
        refine ⟨?_, hnn r hr⟩
        have : r.1 ∈ rs.map Prod.fst := List.mem_map.2 ⟨r, hr, rfl⟩
        rw [hmap] at this
        obtain ⟨w, _, e⟩ := List.mem_map.1 this
        rw [← e]
        exact div_nonneg (Real.exp_pos _).le hpos.le
      obtain ⟨res, h'', e1, e2, e3, e4⟩ := C12_weighted_average hf h1 hv (by rw [hwt]; simpa using h2) hst hsn hw hans htot
      exact ⟨res, k1 res h'' e1, e2, e3, e4⟩
    · intro m hm g hg href
      obtain ⟨j, hj⟩ := List.mem_iff_getElem?.1 hm
      obtain ⟨g1, a1, _, a3⟩ := k4 j g (hone j m g hj hg)
      obtain ⟨g', a4⟩ := a3 href
      have : y0 = none := a1.refuses (env := env Arith.xr encode fuel orderN orderV) (mates _ _ _) a4 k3
      subst this
      exact k2 _ k3

/-- what a server with one bigram or PPM model answers is a distribution -/
theorem single_says {m : Component Arith.xr} (ha : Adaptive m) :
    ∃ bound, ∀ fuel, bound ≤ fuel → ∀ orderN orderV, (env Arith.xr encode fuel orderN orderV).Fair →
      ∀ (cfg : HubConfig XR) reqs g, Server.Reach (env Arith.xr encode fuel orderN orderV) [m] (solo cfg) reqs g → Server.Typed reqs →
        ∀ req r, (∀ c ∈ req.text, 0 ≤ c) → Answered (env Arith.xr encode fuel orderN orderV) g req r →
        ∃ (es : List (Str × ℝ)) (nrm : XR), (∀ e ∈ es, 0 < e.2) ∧ (es.map Prod.snd).sum = 1 ∧ r = ⟨es.map Prod.fst, es.map fun e => XR.fin e.2, nrm⟩ := by
  have hs : ∀ x ∈ [m], Served encode x := fun x hx => by rw [List.mem_singleton.1 hx]; exact ha.served
  obtain ⟨bound, hb⟩ := served_live hs
  refine ⟨bound, fun fuel hfu orderN orderV hf cfg reqs g hr ht req r hcs hans => ?_⟩
  have hl := hb fuel hfu
  -- every extraction
  have key : ∀ calls h1 s r h', Hub.Reach (env Arith.xr encode fuel orderN orderV) [m] (solo cfg) calls h1 →
      extractLMScores (env Arith.xr encode fuel orderN orderV) h1 s = .ok (some r, h') →
      ∃ (es : List (Str × ℝ)) (nrm : XR), (∀ e ∈ es, 0 < e.2) ∧ (es.map Prod.snd).sum = 1 ∧ r = ⟨es.map Prod.fst, es.map fun e => XR.fin e.2, nrm⟩ := by
    intro calls h1 s r h' hr he
    have ho := Hub.reach_own hf (versed_closedOn encode fuel) (fun x hx => ⟨hl x hx, by rw [List.mem_singleton.1 hx]; exact ha.versed⟩) hr
    have hgood := Hub.reach_good hf hr
    have hw : h1.weights.length < 2 := by
      rw [hgood.const.weights]
      show (cfgWeights (A := Arith.xr) (solo cfg)).length < 2
      simp [cfgWeights, solo]
    unfold extractLMScores at he
    split at he
    · cases he
    · cases hst : h1.states[s.toNat]? with
      | none => rw [hst] at he; cases he
      | some st =>
        rw [hst] at he
        cases hms : h1.models with
        | nil => rw [hms] at he; cases he
        | cons m1 ms =>
          rw [hms] at he
          simp only [Except.ok.injEq, Prod.mk.injEq] at he
          obtain ⟨a, b⟩ := ho.at hst 0 m1 (by rw [hms]; rfl)
          exact a.2.says b he.1
  obtain ⟨calls, hc⟩ := hr.hub
  obtain ⟨g0, i0, i1⟩ := hc
  cases req with
  | getNextState ctx x => exact hans.elim
  | getLMScores ctx x =>
    obtain ⟨g', e⟩ := hans
    obtain ⟨⟨k, g1⟩, e1, e2⟩ := bind_ok.1 e
    obtain ⟨⟨z, g2⟩, e3, e4⟩ := bind_ok.1 e2
    cases z with
    | none => cases e4
    | some z =>
      cases e4
      exact key (calls ++ [.context ctx (toInt32 x)]) g1 k _ _ ⟨g0, i0, by rw [Server.run_append, i1, ok_bind]; simp only [run, step, e1, ok_bind]⟩ e3
  | updateLMScores x cs n =>
    obtain ⟨g', e⟩ := hans
    obtain ⟨⟨w, g1⟩, e1, e2⟩ := bind_ok.1 e
    obtain ⟨⟨u, g2⟩, e3, e4⟩ := bind_ok.1 e2
    cases u with
    | false => cases e4
    | true =>
      simp only [if_true] at e4
      obtain ⟨⟨z, g3⟩, e5, e6⟩ := bind_ok.1 e4
      cases z with
      | none => cases e6
      | some z =>
        cases e6
        obtain ⟨calls1, k1⟩ := walk_calls e1
        exact key (calls ++ (calls1 ++ [.update (toInt32 x) cs n])) g2 w _ _ ⟨g0, i0, by
          rw [Server.run_append, i1, ok_bind, Server.run_append, k1, ok_bind]
          simp only at e3
          simp only [run, step, e3, ok_bind]⟩ e5

/-- **C104** For bigram and PPM models: whenever the servers with each of the models alone answer, their answers `rs` are
distributions, and the answer of the server with all of them, after the same requests, is their mixture. -/
theorem C104_adaptive (ha : ∀ m ∈ models, Adaptive m) :
    ∃ bound, ∀ fuel, bound ≤ fuel → ∀ orderN orderV, (env Arith.xr encode fuel orderN orderV).Fair →
      ∀ (cfg : HubConfig XR) reqs h (ws : List ℝ), cfg.mixture = .interpolation → cfg.weights = ws.map XR.fin → ws.length = models.length →
        2 ≤ ws.length → cfg.bayesianHistoryLength ≤ 0 → Server.Reach (env Arith.xr encode fuel orderN orderV) models cfg reqs h → Server.Typed reqs →
        ∀ req : Request, (∀ c ∈ req.text, 0 ≤ c) → (∀ ctx x, req ≠ .getNextState ctx x) →
        (∀ m ∈ models, ∃ g r, Server.Reach (env Arith.xr encode fuel orderN orderV) [m] (solo cfg) reqs g ∧
          Answered (env Arith.xr encode fuel orderN orderV) g req r) →
        ∃ rs : List Share, rs.map Prod.fst = ws.map (fun w => Real.exp (-w) / (ws.map fun v => Real.exp (-v)).sum) ∧
          (∀ r ∈ rs, (∀ e ∈ r.2, 0 < e.2) ∧ (r.2.map Prod.snd).sum = 1) ∧
          (∀ (j : Nat) m r, models[j]? = some m → rs[j]? = some r → ∃ g nrm,
            Server.Reach (env Arith.xr encode fuel orderN orderV) [m] (solo cfg) reqs g ∧
            Answered (env Arith.xr encode fuel orderN orderV) g req ⟨r.2.map Prod.fst, r.2.map fun e => XR.fin e.2, nrm⟩) ∧
          Hub.total rs = 1 ∧ ∃ res, Answered (env Arith.xr encode fuel orderN orderV) h req res ∧ Mixes rs res := by
  obtain ⟨b1, hb1⟩ := C104_mixture (encode := encode) fun m hm => (ha m hm).served
  have hb2 : ∃ bound, ∀ m ∈ models, ∀ fuel, bound ≤ fuel → ∀ orderN orderV, (env Arith.xr encode fuel orderN orderV).Fair →
      ∀ (cfg : HubConfig XR) reqs g, Server.Reach (env Arith.xr encode fuel orderN orderV) [m] (solo cfg) reqs g → Server.Typed reqs →
        ∀ req r, (∀ c ∈ req.text, 0 ≤ c) → Answered (env Arith.xr encode fuel orderN orderV) g req r →
        ∃ (es : List (Str × ℝ)) (nrm : XR), (∀ e ∈ es, 0 < e.2) ∧ (es.map Prod.snd).sum = 1 ∧ r = ⟨es.map Prod.fst, es.map fun e => XR.fin e.2, nrm⟩ := by
    clear hb1
    induction models with
    | nil => exact ⟨0, fun m hm => by cases hm⟩
    | cons m ms ih =>
      obtain ⟨a, ih⟩ := ih fun x hx => ha x (List.mem_cons_of_mem _ hx)
      obtain ⟨b, hb⟩ := single_says (encode := encode) (ha m List.mem_cons_self)
      refine ⟨max a b, fun x hx fuel hfu => ?_⟩
      rcases List.mem_cons.1 hx with rfl | hx
      · exact hb fuel (by omega)
      · exact ih x hx fuel (by omega)
  obtain ⟨b2, hb2⟩ := hb2
  refine ⟨max b1 b2, fun fuel hfu orderN orderV hf cfg reqs h ws hmix hws hlen h2 hbh hr ht req hcs hq hall => ?_⟩
  -- the entries
  have hex : ∀ m : {m // m ∈ models}, ∃ es : List (Str × ℝ), (∀ e ∈ es, 0 < e.2) ∧ (es.map Prod.snd).sum = 1 ∧ ∃ g nrm,
      Server.Reach (env Arith.xr encode fuel orderN orderV) [m.1] (solo cfg) reqs g ∧
      Answered (env Arith.xr encode fuel orderN orderV) g req ⟨es.map Prod.fst, es.map fun e => XR.fin e.2, nrm⟩ := by
    rintro ⟨m, hm⟩
    obtain ⟨g, r, hg, hans⟩ := hall m hm
    obtain ⟨es, nrm, h1, h3, rfl⟩ := hb2 m hm fuel (by omega) orderN orderV hf cfg reqs g hg ht req r hcs hans
    exact ⟨es, h1, h3, g, nrm, hg, hans⟩
  choose es hes using hex
  let ps := ws.map (fun w => Real.exp (-w) / (ws.map fun v => Real.exp (-v)).sum)
  let rs : List Share := ps.zip (models.attach.map es)
  have hpl : ps.length = (models.attach.map es).length := by simp [ps, hlen]
  have hfst : rs.map Prod.fst = ps := List.map_fst_zip (by omega)
  have hprop : ∀ r ∈ rs, (∀ e ∈ r.2, 0 < e.2) ∧ (r.2.map Prod.snd).sum = 1 := by
    rintro ⟨p, e⟩ hr
    obtain ⟨m, _, rfl⟩ := List.mem_map.1 (List.of_mem_zip hr).2
    exact ⟨(hes m).1, (hes m).2.1⟩
  have hpos := exp_sum_pos (ws := ws) h2
  have htot : Hub.total rs = 1 := by
    unfold Hub.total
    have : rs.map (fun r : Share => r.1 * (r.2.map Prod.snd).sum) = rs.map Prod.fst :=
      List.map_congr_left fun r hr => by rw [(hprop r hr).2, mul_one]
    rw [this, hfst]
    have : ps = (ws.map fun w => Real.exp (-w)).map fun x => x / (ws.map fun v => Real.exp (-v)).sum := by
      rw [List.map_map]; rfl
    rw [this, Scores.sum_map_div, div_self hpos.ne']
  have hans : ∀ (j : Nat) m r, models[j]? = some m → rs[j]? = some r → ∃ g nrm,
      Server.Reach (env Arith.xr encode fuel orderN orderV) [m] (solo cfg) reqs g ∧
      Answered (env Arith.xr encode fuel orderN orderV) g req ⟨r.2.map Prod.fst, r.2.map fun e => XR.fin e.2, nrm⟩ := by
    intro j m r hm hr
    obtain ⟨p, q⟩ := r
    obtain ⟨_, hb⟩ := List.getElem?_zip_eq_some.1 hr
    rw [List.getElem?_map, List.getElem?_attach] at hb
    simp only [Option.map_eq_some_iff, Option.pmap_eq_some_iff] at hb
    obtain ⟨x, ⟨a, ha1, ha2, ha3⟩, rfl⟩ := hb
    rw [hm] at ha2
    cases ha2
    subst ha3
    exact (hes ⟨m, ha1⟩).2.2
  exact ⟨rs, hfst, hprop, hans, htot,
    (hb1 fuel (by omega) orderN orderV hf cfg reqs h ws hmix hws hlen h2 hbh hr ht req hcs hq).1 rs hfst
      (fun r hr e he => ((hprop r hr).1 e he).le) (by rw [htot]; exact one_pos) hans⟩

end Mozolm.System
