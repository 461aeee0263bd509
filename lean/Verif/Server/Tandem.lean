import Verif.Server.TandemSpec
import Verif.Server.HandlerLemmas
import Verif.Hub.TandemMix

/-! # Two servers side by side, one with rounding -/

namespace Mozolm.Server
open XR Hub

variable {φ : Prop} {ε δ : ℝ} {F : Rounding φ ε δ} {σ τ : Type}
variable {env : Env F.arith σ} {env' : Env Arith.xr τ} {R : Nat → σ → τ → Prop} {d n : ℝ} {V N k L K : Nat}

/-- the standing assumptions -/
structure Side (F : Rounding φ ε δ) (env : Env F.arith σ) (env' : Env Arith.xr τ) (R : Nat → σ → τ → Prop) (d n : ℝ) (V N : Nat) : Prop where
  eps : 0 ≤ ε
  delta : 0 ≤ δ
  small : δ < 1
  d0 : 0 ≤ d
  n0 : 0 ≤ n
  fair : env.Fair
  fair' : env'.Fair
  order : env.orderN = env'.orderN
  pair : env.Pair F env'.toLMOps R d n V N

theorem initialize_twin (hs : Side F env env' R d n V N) {models : List σ} {models' : List τ} (hm : Pointwise (R 0) models models') (cfg : HubConfig XR)
    (hc : ∀ c ∈ cfg.weights, ∃ p, 0 ≤ p ∧ c = costOf p) {h : Hub F.arith σ} (he : initializeModels (A := F.arith) env models cfg = .ok (some h)) :
    ∃ h', initializeModels (A := Arith.xr) env' models' cfg = .ok (some h') ∧
      HubTwin F R d (cfgWeights (A := F.arith) cfg).length 0 (cfgHlen (A := F.arith) cfg) h h' := by
  rw [initialize_eq hs.fair] at he
  split at he
  · cases he
  · next hu =>
    refine ⟨_, by rw [initialize_eq hs.fair', if_neg hu], ?_⟩
    injection he with he
    injection he with he
    subst he
    have hstart : models.map env.start = models'.map env'.start := by
      clear hu
      induction hm with
      | nil => rfl
      | cons r _ ih => rw [List.map_cons, List.map_cons, ih, hs.pair.start _ _ _ r]
    have hcfg : Pointwise (CostMatch φ 0) cfg.weights cfg.weights := by
      generalize cfg.weights = ws at hc
      induction ws with
      | nil => exact .nil
      | cons c ws ih =>
        exact .cons (.inr (Ppm.CostTwin.self (hc c (by simp)))) (ih fun c hc' => hc c (by simp [hc']))
    refine ⟨?_, rfl, rfl, ⟨rfl, ?_⟩, rfl, rfl, hm, rfl⟩
    · refine .cons ?_ .nil
      rw [hstart]
      exact StateTwin.mk' (F := F) hs.eps hs.d0 _ _ _
    · simp only [initial, cfgWeights]
      split
      · refine (normalizeWeights_match F hs.eps hcfg).mono fun _ _ h => h.le (le_of_eq ?_)
        rw [normalizeWeights_length]
        simp
      · exact .cons (CostMatch.one (by have := hs.eps; positivity)) .nil

variable {h : Hub F.arith σ} {h' : Hub Arith.xr τ}

theorem context_twin (hs : Side F env env' R d n V N) (hk : k ≤ N) (ht : HubTwin F R d K k L h h') (ctx : List Int) (s : Int) :
    Both (fun x y => x.1 = y.1 ∧ HubTwin F R d K k L x.2 y.2) (contextState env h ctx s) (contextState env' h' ctx s) :=
  contextLoop_twin hs.eps hs.d0 hs.pair hk hs.order ctx _ ht

/-- errors of the answers of the two servers -/
noncomputable abbrev probError (ε δ d : ℝ) (K L V : Nat) : ℝ := mixError ε δ d (weightError ε d K L) K V
noncomputable abbrev countError (ε δ d n : ℝ) (K L : Nat) : ℝ := normError δ n (weightError ε d K L) K

theorem scores_twin (hs : Side F env env' R d n V N) (hk : k ≤ N) (ht : HubTwin F R d K k L h h') (ctx : List Int) (s : Int) :
    Both (fun x y => ReplyMatch (ScoresMatch φ (probError ε δ d K L V) (countError ε δ d n K L)) x.1 y.1 ∧ HubTwin F R d K k L x.2 y.2)
      (getLMScores env h ctx s) (getLMScores env' h' ctx s) := by
  unfold getLMScores
  refine (context_twin hs hk ht ctx _).bind fun a b hab => ?_
  rw [hab.1]
  refine (extractLMScores_twin hs.eps hs.delta hs.small hs.d0 hs.n0 hs.fair hs.fair' hs.pair hk hab.2 b.1).bind fun p q hpq => ?_
  obtain ⟨p1, p2⟩ := p
  obtain ⟨q1, q2⟩ := q
  obtain ⟨hpq, ht2⟩ := hpq
  simp only at hpq ht2
  cases hpq with
  | none => exact .ok ⟨.invalidArgument, ht2⟩
  | some hx => exact .ok ⟨.ok hx, ht2⟩

theorem next_twin (hs : Side F env env' R d n V N) (hk : k ≤ N) (ht : HubTwin F R d K k L h h') (ctx : List Int) (s : Int) :
    Both (fun x y => ReplyMatch Eq x.1 y.1 ∧ HubTwin F R d K k L x.2 y.2) (getNextState env h ctx s) (getNextState env' h' ctx s) := by
  unfold getNextState
  exact (context_twin hs hk ht ctx _).bind fun a b hab => .ok ⟨.ok hab.1, hab.2⟩

theorem walk_twin (hs : Side F env env' R d n V N) (hk : k ≤ N) (cs : List Int) : ∀ {h : Hub F.arith σ} {h' : Hub Arith.xr τ} (s : Int),
    HubTwin F R d K k L h h' → Both (fun x y => x.1 = y.1 ∧ HubTwin F R d K k L x.2 y.2) (walk env h s cs) (walk env' h' s cs) := by
  induction cs with
  | nil => intro h h' s ht; exact .ok ⟨rfl, ht⟩
  | cons c cs ih =>
    intro h h' s ht
    simp only [walk]
    refine (nextState_twin hs.eps hs.d0 hs.pair hk hs.order ht s c).bind fun a b hab => ?_
    rw [hab.1]
    exact ih _ hab.2

theorem update_twin (hs : Side F env env' R d n V N) (s : Int) (cs : List Int) (count : Int) (hk : k + cs.length * count.toNat ≤ N)
    (ht : HubTwin F R d K k L h h') :
    Both (fun x y => ReplyMatch (ScoresMatch φ (probError ε δ d K L V) (countError ε δ d n K L)) x.1 y.1 ∧
      HubTwin F R d K (k + cs.length * count.toNat) L x.2 y.2)
      (updateLMScores env h s cs count) (updateLMScores env' h' s cs count) := by
  have hk' : k ≤ N := by omega
  unfold updateLMScores
  refine (walk_twin hs hk' cs _ ht).bind fun a b hab => ?_
  rw [hab.1]
  refine (updateLMCounts_twin hs.eps hs.d0 hs.pair hk' hs.order hab.2 (toInt32 s) cs count).bind fun u v huv => ?_
  rw [huv.1]
  split
  · refine (extractLMScores_twin hs.eps hs.delta hs.small hs.d0 hs.n0 hs.fair hs.fair' hs.pair hk huv.2 b.1).bind fun p q hpq => ?_
    obtain ⟨p1, p2⟩ := p
    obtain ⟨q1, q2⟩ := q
    obtain ⟨hpq, ht2⟩ := hpq
    simp only at hpq ht2
    cases hpq with
    | none => exact .ok ⟨.invalidArgument, ht2⟩
    | some hx => exact .ok ⟨.ok hx, ht2⟩
  · exact .ok ⟨.invalidArgument, huv.2⟩

theorem serve_twin (hs : Side F env env' R d n V N) (req : Request) (hk : k + req.taught ≤ N) (ht : HubTwin F R d K k L h h') :
    Both (HubTwin F R d K (k + req.taught) L) (serve env h req) (serve env' h' req) := by
  cases req with
  | getNextState ctx s => exact (next_twin hs hk ht ctx s).bind fun a b hab => .ok hab.2
  | getLMScores ctx s => exact (scores_twin hs hk ht ctx s).bind fun a b hab => .ok hab.2
  | updateLMScores s cs count => exact (update_twin hs s cs count hk ht).bind fun a b hab => .ok hab.2

theorem serveAll_twin (hs : Side F env env' R d n V N) : ∀ (reqs : List Request) {k : Nat} {h : Hub F.arith σ} {h' : Hub Arith.xr τ},
    k + taught reqs ≤ N → HubTwin F R d K k L h h' → Both (HubTwin F R d K (k + taught reqs) L) (serveAll env h reqs) (serveAll env' h' reqs) := by
  intro reqs
  induction reqs with
  | nil => intro k h h' _ ht; exact .ok ht
  | cons r rs ih =>
    intro k h h' hk ht
    have e : taught (r :: rs) = r.taught + taught rs := by simp [taught]
    rw [e, ← Nat.add_assoc] at hk
    rw [e, ← Nat.add_assoc]
    simp only [serveAll]
    exact (serve_twin hs r (by omega) ht).bind fun a b hab => ih hk hab

/-- The two servers after the same requests. -/
theorem reach_twin (hs : Side F env env' R d n V N) {models : List σ} {models' : List τ} (hm : Pointwise (R 0) models models') (cfg : HubConfig XR)
    (hc : ∀ c ∈ cfg.weights, ∃ p, 0 ≤ p ∧ c = costOf p) {reqs : List Request} (hN : taught reqs ≤ N) {h : Hub F.arith σ}
    (hr : Reach (A := F.arith) env models cfg reqs h) : ∃ h', Reach (A := Arith.xr) env' models' cfg reqs h' ∧
      HubTwin F R d (cfgWeights (A := F.arith) cfg).length (taught reqs) (cfgHlen (A := F.arith) cfg) h h' := by
  obtain ⟨h0, e0, e1⟩ := hr
  obtain ⟨h0', e0', ht⟩ := initialize_twin hs hm cfg hc e0
  have := serveAll_twin hs reqs (k := 0) (by omega) ht
  obtain ⟨h', e2, ht2⟩ := this.of_ok e1
  rw [Nat.zero_add] at ht2
  exact ⟨h', ⟨h0', e0', e2⟩, ht2⟩

end Mozolm.Server
