import Verif.System.Alone
import Verif.Props.History

/-!
# C74: the reply of the service in terms of what the components say on their own
-/

namespace Mozolm.System
variable {A : Arith} {encode : Int → Str} {fuel : Nat}

theorem NothingLearnt.calls {models : List (Component A)} {reqs : List Server.Request} {calls : List Hub.Call}
    (hq : NothingLearnt models reqs)
    (u : ∀ s cs n, Hub.Call.update s cs n ∈ calls → ∃ s', Server.Request.updateLMScores s' cs n ∈ reqs) :
    (∀ m ∈ models, Fixed m) ∨ Hub.Quiet calls := by
  rcases hq with hq | hq
  · exact .inl hq
  · refine .inr fun s cs n h => ?_
    obtain ⟨s', h⟩ := u s cs n h
    exact hq _ _ _ h

theorem quiet_same (m : Component A) (s : Int) (cs : List Int) (n : Int) :
    (if n ≤ 0 then update encode m s cs n else (true, m)).2 = m := by
  split
  · next hn => exact update_quiet m s cs hn
  · rfl

/-- **C74** (one model) Without mixing, and if nothing was learnt, a text sent with a state id of at most zero
gets the answer the first model gives to it on its own. -/
theorem C74_single {m : Component A} {ms : List (Component A)} (hs : ∀ x ∈ m :: ms, Served encode x) :
    ∃ bound, ∀ fuel, bound ≤ fuel → ∀ orderN orderV, (env A encode fuel orderN orderV).Fair →
      ∀ cfg reqs h, (cfg.mixture = .none ∨ cfg.weights.length < 2) → NothingLearnt (m :: ms) reqs →
        Server.Reach (env A encode fuel orderN orderV) (m :: ms) cfg reqs h →
        ∀ text, (∀ c ∈ text, 0 ≤ c) → ∀ x, -2 ^ 31 ≤ x → x ≤ 0 →
        1 + (reqs.map Server.Request.symbols).sum + text.length ≤ Hub.cfgMax cfg →
        ∃ h', Server.getLMScores (env A encode fuel orderN orderV) h text x =
          .ok (match alone encode fuel m text with
            | some r => .ok r
            | none => .invalidArgument, h') := by
  obtain ⟨bound, hb⟩ := served_live hs
  refine ⟨bound, fun fuel hfu orderN orderV hf cfg reqs h hcfg hq hr text ht x hl hx hm => ?_⟩
  obtain ⟨calls, hc, u, s⟩ := hr.hub'
  have e32 : Server.toInt32 x = x := Server.toInt32_of_range (by omega) (by omega)
  obtain ⟨r, h', e, -⟩ := Hub.contextLoop_ok hf (Hub.reach_good hf hc).inv (if x < 0 then 0 else x) text
  have e : Hub.contextState (env A encode fuel orderN orderV) h text x = .ok (r, h') := e
  have hg := Hub.few_context hf hc (by omega) e
  have hlive := hb fuel hfu
  have key : ∃ h'', Hub.extractLMScores (env A encode fuel orderN orderV) h' r = .ok (alone encode fuel m text, h'') := by
    rw [← ans_alone (hlive m List.mem_cons_self) ht]
    rcases hq.calls u with hq | hq
    · exact Hub.answer_single hf (traces_fixed A encode fuel) (fun m hm => ⟨hlive m hm, hq m hm⟩) hc hcfg ht hx e hg
    · rw [← Hub.quiet_context] at e
      rw [← Hub.quiet_extract]
      exact Hub.answer_single (Fair.quiet hf) (traces_of quiet_same) hlive (Hub.quiet_reach hq hc) hcfg ht hx e hg
  obtain ⟨h'', key⟩ := key
  refine ⟨h'', ?_⟩
  simp only [Server.getLMScores, e32, e, ok_bind, key]
  cases alone encode fuel m text <;> rfl

/-- What the component says on its own about a text, in probabilities: those it gives to the characters one
after the other, and its answer after the text. -/
structure Speaks (encode : Int → Str) (fuel : Nat) (m : Component Arith.xr) (text : List Int) (v : Hub.Voice) : Prop where
  length : v.chars.length = text.length
  char : ∀ (i : Nat) (c : Int) (p : ℝ), text[i]? = some c → v.chars[i]? = some p →
    0 ≤ p ∧ aloneScore encode fuel m (text.take i) c = XR.costOf p
  nonneg : ∀ e ∈ v.entries, 0 ≤ e.2
  answer : ∃ nrm, alone encode fuel m text =
    some ⟨v.entries.map Prod.fst, v.entries.map fun e => XR.fin e.2, nrm⟩

/-- **C74** (mixture) With interpolation over two or more weighted components, and if nothing was learnt, the
reply to a text is the mixture of the answers the components give to it on their own.  A component's share is
its configured weight times the probabilities it gave to the last characters of the text – as many as the
configured Bayesian history length – over the sum of these; the reply lists every symbol of any component
once, in byte order, with the share-weighted sum of its probabilities over the total. -/
theorem C74_mixture {models : List (Component Arith.xr)} (hs : ∀ m ∈ models, Served encode m) :
    ∃ bound, ∀ fuel, bound ≤ fuel → ∀ orderN orderV, (env Arith.xr encode fuel orderN orderV).Fair →
      ∀ (cfg : Hub.HubConfig XR) reqs h, cfg.mixture = .interpolation → NothingLearnt models reqs →
        Server.Reach (env Arith.xr encode fuel orderN orderV) models cfg reqs h →
        ∀ text, (∀ c ∈ text, 0 ≤ c) → ∀ x, -2 ^ 31 ≤ x → x ≤ 0 →
        1 + (reqs.map Server.Request.symbols).sum + text.length ≤ Hub.cfgMax (A := Arith.xr) cfg →
        ∀ vs : List Hub.Voice, 2 ≤ vs.length → vs.length = models.length →
        cfg.weights = vs.map (fun v => .fin v.weight) →
        (∀ (k : Nat) m v, models[k]? = some m → vs[k]? = some v → Speaks encode fuel m text v) →
        ∀ rs, rs = Hub.sharesOf cfg.bayesianHistoryLength.toNat vs →
        0 < (vs.map (Hub.Voice.earned cfg.bayesianHistoryLength.toNat)).sum → 0 < Hub.total rs →
        ∃ res h', Server.getLMScores (env Arith.xr encode fuel orderN orderV) h text x = .ok (.ok res, h') ∧
          res.symbols.Pairwise Hub.byteLt ∧
          (∀ sym, sym ∈ res.symbols ↔ ∃ v ∈ vs, ∃ e ∈ v.entries, e.1 = sym) ∧
          res.probs = res.symbols.map fun sym => XR.fin (Hub.mass rs sym / Hub.total rs) := by
  obtain ⟨bound, hb⟩ := served_live hs
  refine ⟨bound, fun fuel hfu orderN orderV hf cfg reqs h hmix hq hr text ht x hl hx hm vs h2 hlen hws hsp rs hrs
    hpos htot => ?_⟩
  subst hrs
  obtain ⟨calls, hc, u, s⟩ := hr.hub'
  have e32 : Server.toInt32 x = x := Server.toInt32_of_range (by omega) (by omega)
  obtain ⟨r, h', e, -⟩ := Hub.contextLoop_ok hf (Hub.reach_good hf hc).inv (if x < 0 then 0 else x) text
  have e : Hub.contextState (env Arith.xr encode fuel orderN orderV) h text x = .ok (r, h') := e
  have hg := Hub.few_context hf hc (by omega) e
  have hlive := hb fuel hfu
  have hsp' : ∀ v ∈ vs, ∃ m, Speaks encode fuel m text v := by
    intro v hv
    obtain ⟨k, hk, rfl⟩ := List.mem_iff_getElem.1 hv
    exact ⟨models[k], hsp k _ _ (List.getElem?_eq_getElem (by omega)) (List.getElem?_eq_getElem hk)⟩
  have hnn : ∀ v ∈ vs, (∀ p ∈ v.chars, 0 ≤ p) ∧ ∀ e ∈ v.entries, 0 ≤ e.2 := by
    intro v hv
    obtain ⟨m, hS⟩ := hsp' v hv
    refine ⟨fun p hp => ?_, hS.nonneg⟩
    obtain ⟨i, hi, rfl⟩ := List.mem_iff_getElem.1 hp
    exact (hS.char i _ _ (List.getElem?_eq_getElem (by rw [← hS.length]; exact hi)) (List.getElem?_eq_getElem hi)).1
  have hch : ∀ (k : Nat) (m : Component Arith.xr) (v : Hub.Voice), models[k]? = some m → vs[k]? = some v →
      Hub.traceCosts (cost encode fuel m) [] text = v.chars.map XR.costOf ∧
      ∃ nrm, ans encode fuel m text = some ⟨v.entries.map Prod.fst, v.entries.map fun e => .fin e.2, nrm⟩ := by
    intro k m v hm hv
    have hS := hsp k m v hm hv
    have hlm := hlive m (List.mem_of_getElem? hm)
    constructor
    · rw [traceCosts_alone (sc := aloneScore encode fuel m) fun pre c hp =>
        cost_alone hlm (fun c hc => ht c (hp.subset (List.mem_append_left _ hc))) c]
      refine List.ext_getElem? fun i => ?_
      rw [getElem?_traceCosts, List.getElem?_map]
      by_cases hi : i < text.length
      · have hi' : i < v.chars.length := by rw [hS.length]; exact hi
        rw [List.getElem?_eq_getElem hi, List.getElem?_eq_getElem hi']
        simp only [Option.map_some, List.nil_append]
        rw [(hS.char i _ _ (List.getElem?_eq_getElem hi) (List.getElem?_eq_getElem hi')).2]
      · rw [List.getElem?_eq_none (by omega), List.getElem?_eq_none (by rw [hS.length]; omega)]
        rfl
    · rw [ans_alone hlm ht]
      exact hS.answer
  have key : ∃ res h'', Hub.extractLMScores (env Arith.xr encode fuel orderN orderV) h' r = .ok (some res, h'') ∧
      res.symbols.Pairwise Hub.byteLt ∧
      (∀ sym, sym ∈ res.symbols ↔ ∃ v ∈ vs, ∃ e ∈ v.entries, e.1 = sym) ∧
      res.probs = res.symbols.map fun sym => XR.fin (Hub.mass (Hub.sharesOf cfg.bayesianHistoryLength.toNat vs) sym /
        Hub.total (Hub.sharesOf cfg.bayesianHistoryLength.toNat vs)) := by
    rcases hq.calls u with hq | hq
    · exact Hub.answer_mixture hf (traces_fixed Arith.xr encode fuel) (fun m hm => ⟨hlive m hm, hq m hm⟩) hc hmix hws h2
        hlen ht hnn hch hpos htot hx e hg
    · rw [← Hub.quiet_context] at e
      rw [← Hub.quiet_extract]
      exact Hub.answer_mixture (Fair.quiet hf) (traces_of quiet_same) hlive (Hub.quiet_reach hq hc) hmix hws h2
        hlen ht hnn hch hpos htot hx e hg
  obtain ⟨res, h'', k1, k2⟩ := key
  refine ⟨res, h'', ?_, k2⟩
  simp only [Server.getLMScores, e32, e, ok_bind, k1]

end Mozolm.System
