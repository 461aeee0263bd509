import Verif.System.Tandem

/-!
# C93: accuracy of the whole service with rounding

Two servers with the same configuration serve the same requests from the same components (`System.Mates`), one computing with rounding, the other with
real numbers. They accept and refuse the same requests and name the same states and symbols, and every probability that exists without rounding is
answered within a factor computed from the rounding errors, the depth of the components and the length of the history.
-/

namespace Mozolm.Server
open Hub
variable {A : Arith} {σ : Type} {env : Env A σ} {live : σ → Prop} {ok : σ → Int → Prop}

theorem serve_own (hf : env.Fair) (hc : env.toLMOps.ClosedOn live ok) {h h' : Hub A σ} (ho : Own live ok h) {r : Request}
    (he : serve env h r = .ok h') : Own live ok h' := by
  obtain ⟨cs, e⟩ := serve_calls he
  exact ho.run_own hf hc e

theorem serveAll_guard (hf : env.Fair) (hc : env.toLMOps.ClosedOn live ok) (reqs : List Request) : ∀ {h : Hub A σ}, Own live ok h →
    serveAll env h reqs = serveAll (env.guard live ok) h reqs := by
  induction reqs with
  | nil => intro h _; rfl
  | cons r rs ih =>
    intro h ho
    simp only [serveAll]
    rw [← serve_guard hf hc ho]
    cases e : serve env h r with
    | error f => rfl
    | ok h1 => exact ih (serve_own hf hc ho e)

theorem reach_own (hf : env.Fair) (hc : env.toLMOps.ClosedOn live ok) {models : List σ} (hl : ∀ m ∈ models, live m) {cfg : HubConfig A.C}
    {reqs : List Request} {h : Hub A σ} (hr : Reach env models cfg reqs h) : Own live ok h := by
  obtain ⟨cs, e⟩ := hr.hub
  exact Hub.reach_own hf hc hl e

theorem reach_guard (hf : env.Fair) (hc : env.toLMOps.ClosedOn live ok) {models : List σ} (hl : ∀ m ∈ models, live m) (cfg : HubConfig A.C)
    (reqs : List Request) (h : Hub A σ) : Reach env models cfg reqs h ↔ Reach (env.guard live ok) models cfg reqs h := by
  have key : ∀ (e : Env A σ), e.Fair → (Reach e models cfg reqs h ↔ cfg.mixture ≠ .unknown ∧
      serveAll e (initial e models (cfgWeights cfg) (cfgHlen cfg) (cfgMax cfg)) reqs = .ok h) := by
    intro e he
    unfold Reach
    rw [initialize_eq he]
    by_cases hm : cfg.mixture = .unknown
    · simp [hm]
    · simp only [if_neg hm, Except.ok.injEq, Option.some.injEq, exists_eq_left']
      simp [hm]
  rw [key env hf, key _ hf.guard]
  have := serveAll_guard hf hc reqs (initial_own (env := env) hc hl (cfgWeights cfg) (cfgHlen cfg) (cfgMax_ge cfg))
  rw [this]
  rfl

end Mozolm.Server

namespace Mozolm.System
open XR Real
variable {φ : Prop} {ε δ : ℝ} {F : Rounding φ ε δ} {hε : 0 ≤ ε} {d n : ℝ} {V N : Nat}

theorem Mates.twins {m : Component F.arith} {m' : Component Arith.xr} (h : Mates F hε d n V N m m') :
    ∃ bound, ∀ fuel, bound ≤ fuel → Twins F hε fuel d n V N 0 m m' := by
  cases h with
  | bigram h1 h2 h3 h4 => exact ⟨0, fun _ _ => .bigram (Bigram.read_wf h1) h2 h3 h4⟩
  | char h1 hc ha hw hd h2 h3 h4 =>
    obtain ⟨bound, hb⟩ := Word.enough_of_acyclic (A := Arith.xr) ha
    exact ⟨bound, fun fuel hf => .char ⟨hc, hb fuel hf, read_unigram h1 hc⟩ hw hd h2 h3 h4⟩
  | @ppm a b T K hb hb1 o srcF src vocab mF m ha haF hbF haR hbR hsrc rF r hT hK0 hK h2 h3 h4 =>
    obtain ⟨mF', ordF, uF, rF', iF, aF⟩ := hsrc.rounded hbF
    obtain ⟨m', ord, u, r', i, ht, aR⟩ := hsrc.plain hbR
    rw [rF] at rF'
    obtain rfl : mF = mF' := Ppm.Res.pure_inj rF'
    rw [r] at r'
    obtain rfl : m = m' := Ppm.Res.pure_inj r'
    have htw := Ppm.read_twin (R := Ppm.twin F hε hb hb1) (o := o) (o' := o) rfl rfl rfl hbF hbR hsrc.twin (vocab.map some)
    rw [rF, r] at htw
    have htw' : Ppm.ModelTwin (Ppm.twin F hε hb hb1) mF m := by
      cases htw with
      | ok h => exact h
    have hch : mF.chars = m.chars := by unfold Ppm.Model.chars; rw [htw'.symbols]
    have hlt := i.wf.ord_lt i.wf.u_lt
    rw [i.wf.ord_u] at hlt
    have htan : Ppm.Tandem F hε hb hb1 a m.chars (m.core.maxOrder - 1).toNat mF m := ⟨htw', ⟨ordF, uF, by rw [← hch]; exact iF⟩, ⟨ord, u, i⟩, ht,
      aF.trans haF, aR.trans haR, by omega⟩
    refine ⟨0, fun fuel _ => .ppm ha htan (fun s hs => ?_) hK0 hK h2 h3 h4⟩
    have := hT s hs
    simp only [Nat.cast_zero, add_zero]
    linarith

theorem mates_twins {models : List (Component F.arith)} {models' : List (Component Arith.xr)} (h : Pointwise (Mates F hε d n V N) models models') :
    ∃ bound, ∀ fuel, bound ≤ fuel → Pointwise (Twins F hε fuel d n V N 0) models models' := by
  induction h with
  | nil => exact ⟨0, fun _ _ => .nil⟩
  | cons h _ ih =>
    obtain ⟨b1, h1⟩ := h.twins
    obtain ⟨b2, h2⟩ := ih
    exact ⟨max b1 b2, fun fuel hf => .cons (h1 fuel (by omega)) (h2 fuel (by omega))⟩

/-- **C93** Every hub the server with rounding reaches has a counterpart that the server without rounding reaches by the same requests, and the two
answer the next request alike, as long as at most `N` symbols were taught: they refuse or answer it together, with the same next states and symbols,
and probabilities and normalizations that agree within the factors `exp (probError …)` and `exp (countError …)` (or a flag was raised, or the value
without rounding is undefined). -/
theorem C93_service (hδ0 : 0 ≤ δ) (hδ1 : δ < 1) (hd : 0 ≤ d) (hn : 0 ≤ n) {models : List (Component F.arith)} {models' : List (Component Arith.xr)}
    (hm : Pointwise (Mates F hε d n V N) models models') (encode : Int → Str) :
    ∃ bound, ∀ fuel, bound ≤ fuel → ∀ orderN orderV orderV', (env F.arith encode fuel orderN orderV).Fair →
      (env Arith.xr encode fuel orderN orderV').Fair → ∀ cfg : Hub.HubConfig XR, (∀ c ∈ cfg.weights, ∃ p, 0 ≤ p ∧ c = costOf p) →
      ∀ reqs h, Server.Reach (A := F.arith) (env F.arith encode fuel orderN orderV) models cfg reqs h → Server.taught reqs ≤ N →
      ∃ h', Server.Reach (A := Arith.xr) (env Arith.xr encode fuel orderN orderV') models' cfg reqs h' ∧
        Server.AnswersMatch φ F
          (Server.probError ε δ d (Hub.cfgWeights (A := F.arith) cfg).length (Hub.cfgHlen (A := F.arith) cfg) V)
          (Server.countError ε δ d n (Hub.cfgWeights (A := F.arith) cfg).length (Hub.cfgHlen (A := F.arith) cfg))
          N (Server.taught reqs) (env F.arith encode fuel orderN orderV) (env Arith.xr encode fuel orderN orderV') h h' := by
  classical
  obtain ⟨bound, hb⟩ := mates_twins hm
  refine ⟨bound, fun fuel hfu orderN orderV orderV' hf hf' cfg hc reqs h hr hN => ?_⟩
  have ht := hb fuel hfu
  have hl : ∀ m ∈ models, live encode fuel m := fun m hm => by
    obtain ⟨j, hj⟩ := List.mem_iff_getElem?.1 hm
    obtain ⟨m', _, h'⟩ := Hub.Pointwise.get ht hj
    exact h'.live.1
  have hl' : ∀ m ∈ models', live encode fuel m := fun m hm => by
    obtain ⟨j, hj⟩ := List.mem_iff_getElem?.1 hm
    obtain ⟨m', _, h'⟩ := Hub.Pointwise.get' ht hj
    exact h'.live.2
  have hc1 := closedOn F.arith encode fuel
  have hc2 := closedOn Arith.xr encode fuel
  have hs : Server.Side F ((env F.arith encode fuel orderN orderV).guard (live encode fuel) ok)
      ((env Arith.xr encode fuel orderN orderV').guard (live encode fuel) ok) (Twins F hε fuel d n V N) d n V N :=
    { eps := hε, delta := hδ0, small := hδ1, d0 := hd, n0 := hn, fair := hf.guard, fair' := hf'.guard, order := rfl,
      pair := tandem_pair hδ0 hδ1 hd }
  have hr1 := (Server.reach_guard hf hc1 hl cfg reqs h).1 hr
  obtain ⟨h', hr2, htw⟩ := Server.reach_twin hs ht cfg hc hN hr1
  have hr' := (Server.reach_guard hf' hc2 hl' cfg reqs h').2 hr2
  have ho := Server.reach_own hf hc1 hl hr
  have ho' := Server.reach_own hf' hc2 hl' hr'
  refine ⟨h', hr', fun ctx x rep h1 e => ?_, fun ctx x rep h1 e => ?_, fun x cs c rep h1 hk e => ?_⟩
  · rw [Server.getNextState_guard hf hc1 ho] at e
    obtain ⟨⟨rep', h1'⟩, e', q⟩ := (Server.next_twin hs hN htw ctx x).of_ok e
    exact ⟨rep', h1', by rw [Server.getNextState_guard hf' hc2 ho']; exact e', q.1⟩
  · rw [Server.getLMScores_guard hf hc1 ho] at e
    obtain ⟨⟨rep', h1'⟩, e', q⟩ := (Server.scores_twin hs hN htw ctx x).of_ok e
    exact ⟨rep', h1', by rw [Server.getLMScores_guard hf' hc2 ho']; exact e', q.1⟩
  · rw [Server.updateLMScores_guard hf hc1 ho] at e
    obtain ⟨⟨rep', h1'⟩, e', q⟩ := (Server.update_twin hs x cs c hk htw).of_ok e
    exact ⟨rep', h1', by rw [Server.updateLMScores_guard hf' hc2 ho']; exact e', q.1⟩

end Mozolm.System
