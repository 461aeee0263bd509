import Verif.Props.Refresh
import Verif.Hub.Answer
import Verif.System.Steady
import Verif.Props.System

/-!
# C75: the mixture weights in force along a counted text
-/

namespace Mozolm.Hub

section
variable {A : Arith} {σ : Type} {env : Env A σ} {models : List σ} {cfg : HubConfig A.C} {calls : List Call}
  {h h' : Hub A σ}

/-- **C75** (from the start) The history of the state reached by a beginning of a text counted at the start state
holds exactly the costs the components give to its last characters, costs of probability one standing in for
the missing ones. -/
theorem C75_from_start {live : σ → Prop} {ok : σ → Int → Prop} (hf : env.Fair) (hst : env.toLMOps.Steady live ok)
    (hlv : ∀ m ∈ models, live m) (hr : Reach env models cfg calls h) (hpos : 0 < h.hlen)
    {cs : List Int} (hcs : ∀ c ∈ cs, 0 ≤ c)
    (hroom : h.states.length + cs.length ≤ h.max ∨ cs.length < h.turnsLeft 0) {n : Int} {r : Bool}
    (he : updateLMCounts env h 0 cs n = .ok (r, h')) (hg : h'.selfRecycled = false) :
    ∃ (t : Nat) (h1 : Hub A σ), contextState env h cs 0 = .ok ((t : Int), h1) ∧
      ∀ len, 0 < len → len ≤ cs.length → ∃ (q : Nat) (qst : HubState A.C),
        contextState env h' (cs.take len) 0 = .ok ((q : Int), h') ∧ h'.states[q]? = some qst ∧
        ∀ (j : Nat) (m : σ), h1.models[j]? = some m → ∃ costs, costs.length = len ∧
          (∀ (i : Nat) c x, cs[i]? = some c → costs[i]? = some x → ∃ (p : Nat) (pst : HubState A.C),
            contextState env h1 (cs.take i) 0 = .ok ((p : Int), h1) ∧ h1.states[p]? = some pst ∧
            x = (env.symScore m (pst.modelState j) c).1) ∧
          qst.hist[j]? = some (lastN h.hlen (List.replicate h.hlen A.one ++ costs)) ∧
          qst.histSum[j]? = some (rowSum A (lastN h.hlen (List.replicate h.hlen A.one ++ costs))) := by
  have g := reach_good hf hr
  have hk : 0 < h.states.length := g.inv.pos
  obtain ⟨t, h1, kst, e1, e2, e3⟩ := C75_text hf hst hlv hr hpos (k := 0) hk hcs hroom he hg
  have e1 : contextState env h cs 0 = .ok ((t : Int), h1) := e1
  obtain ⟨_, _, e1', g1, _⟩ := contextLoop_ok hf g.inv (if (0 : Int) < 0 then 0 else 0) cs
  have e1'' : contextLoop env h (if (0 : Int) < 0 then 0 else 0) cs = .ok ((t : Int), h1) := e1
  rw [e1''] at e1'; cases e1'
  obtain ⟨st0, f1, _, f3, _⟩ := (g.trans g1).pres _ _ (freshStart_preserved hf) (initial_freshStart models _ _ _)
  rw [e2] at f1; cases f1
  have hl1 : h1.hlen = h.hlen := g1.const.hlen
  refine ⟨t, h1, e1, fun len h0 hle => ?_⟩
  obtain ⟨q, qst, a1, a2, a3⟩ := e3 len h0 hle
  refine ⟨q, qst, a1, a2, fun j m hm => ?_⟩
  obtain ⟨row, costs, b1, b2, b3, b4, b5⟩ := a3 j m hm
  have hrow : row = List.replicate h.hlen A.one := by
    rw [f3, hl1, initHist, if_pos hpos] at b1
    simp only [List.getElem?_replicate, lt_of_getElem?_eq_some hm, if_true, Option.some.injEq] at b1
    exact b1.symm
  subst hrow
  exact ⟨costs, b2, b3, b4, b5⟩
end

section
open XR
variable {σ : Type} {env : Env Arith.xr σ} {models : List σ} {cfg : HubConfig XR} {calls : List Call}
  {h h' : Hub Arith.xr σ}

/-- **C75** (weights) After a text was counted at the start state of a hub with adaptive weights, the weights in
force at each state along the text are the configured ones times the probabilities the components give, as they
stand before this update's counts, to the last characters typed – over their sum. -/
theorem C75_weights {live : σ → Prop} {ok : σ → Int → Prop} (hf : env.Fair) (hst : env.toLMOps.Steady live ok)
    (hlv : ∀ m ∈ models, live m) (hr : Reach env models cfg calls h) (hmix : cfg.mixture = .interpolation)
    {ws : List ℝ} (hws : cfg.weights = ws.map XR.fin) (h2 : 2 ≤ ws.length) (hlen : ws.length = models.length)
    (hb : 0 < cfg.bayesianHistoryLength) {cs : List Int} (hcs : ∀ c ∈ cs, 0 ≤ c)
    (hroom : h.states.length + cs.length ≤ h.max ∨ cs.length < h.turnsLeft 0) {n : Int} {r : Bool}
    (he : updateLMCounts env h 0 cs n = .ok (r, h')) (hg : h'.selfRecycled = false) :
    ∃ (t : Nat) (h1 : Hub Arith.xr σ), contextState env h cs 0 = .ok ((t : Int), h1) ∧
      ∀ len, 0 < len → len ≤ cs.length → ∃ q : Nat, contextState env h' (cs.take len) 0 = .ok ((q : Int), h') ∧
        ∀ vs : List Voice, vs.map Voice.weight = ws →
          (∀ (j : Nat) m v, h1.models[j]? = some m → vs[j]? = some v → v.chars.length = len ∧
            ∀ (i : Nat) c pr, cs[i]? = some c → v.chars[i]? = some pr → 0 ≤ pr ∧
              ∀ (p : Nat) pst, contextState env h1 (cs.take i) 0 = .ok ((p : Int), h1) → h1.states[p]? = some pst →
                (env.symScore m (pst.modelState j) c).1 = costOf pr) →
          0 < (vs.map (Voice.earned cfg.bayesianHistoryLength.toNat)).sum →
          getMixtureWeights h' q true =
            .ok ((sharesOf cfg.bayesianHistoryLength.toNat vs).map fun s => costOf s.1) := by
  have g := reach_good hf hr
  have hhl : h.hlen = cfg.bayesianHistoryLength.toNat := by
    rw [g.const.hlen]
    show cfgHlen (A := Arith.xr) cfg = _
    unfold cfgHlen
    rw [if_pos ⟨hmix, by rw [hws]; simpa using h2⟩]
  obtain ⟨t, h1, e1, e2⟩ := C75_from_start hf hst hlv hr (by omega) hcs hroom he hg
  refine ⟨t, h1, e1, fun len h0 hle => ?_⟩
  obtain ⟨q, qst, a1, a2, a3⟩ := e2 len h0 hle
  refine ⟨q, a1, fun vs hvw hch hpos => ?_⟩
  have hr' : Reach env models cfg (calls ++ [.update 0 cs n]) h' := by
    obtain ⟨h0, e0, e1⟩ := hr
    exact ⟨h0, e0, by rw [Server.run_append, e1, ok_bind]; simp only [run, step, he, ok_bind]⟩
  have g' := reach_good hf hr'
  subst hvw
  rw [List.length_map] at h2 hlen
  obtain ⟨hwt, _⟩ := C09_weights hf hr' hmix hws (by simpa using h2)
  have hhl' : h'.hlen = cfg.bayesianHistoryLength.toNat := by
    rw [g'.const.hlen, ← hhl, g.const.hlen]
  obtain ⟨_, _, e1', g1, _⟩ := contextLoop_ok hf g.inv (if (0 : Int) < 0 then 0 else 0) cs
  have e1'' : contextLoop env h (if (0 : Int) < 0 then 0 else 0) cs = .ok ((t : Int), h1) := e1
  rw [e1''] at e1'; cases e1'
  have hm1 : h1.models.length = models.length := (g.trans g1).const.models.length_eq.symm
  have hm' : h'.models.length = models.length := g'.const.models.length_eq.symm
  have hnn : ∀ v ∈ vs, ∀ p ∈ v.chars, 0 ≤ p := by
    intro v hv p hp
    obtain ⟨j, hj⟩ := List.getElem?_of_mem hv
    obtain ⟨m, hm⟩ := exists_getElem?_of_lt (l := h1.models) (i := j) (by
      have := lt_of_getElem?_eq_some hj; omega)
    obtain ⟨i, hi⟩ := List.getElem?_of_mem hp
    obtain ⟨b1, b2⟩ := hch j m v hm hj
    obtain ⟨c, hc⟩ := exists_getElem?_of_lt (l := cs) (i := i) (by
      have := lt_of_getElem?_eq_some hi; omega)
    exact (b2 i c p hc hi).1
  refine weights_of_sums h2 hwt hhl' (by omega) a2 ?_ hnn hpos fun j v hv => ?_
  · rw [((g'.inv.st _ qst a2).hist (by omega)).2.1, hm', hlen]
  · obtain ⟨m, hm⟩ := exists_getElem?_of_lt (l := h1.models) (i := j) (by
      have := lt_of_getElem?_eq_some hv; omega)
    obtain ⟨costs, b1, b2, _, b4⟩ := a3 j m hm
    obtain ⟨c1, c2⟩ := hch j m v hm hv
    have hcosts : costs = v.chars.map costOf := by
      refine List.ext_getElem? fun i => ?_
      by_cases hi : i < len
      · obtain ⟨x, hx⟩ := exists_getElem?_of_lt (l := costs) (i := i) (by omega)
        obtain ⟨c, hc⟩ := exists_getElem?_of_lt (l := cs) (i := i) (by omega)
        obtain ⟨p, hp⟩ := exists_getElem?_of_lt (l := v.chars) (i := i) (by omega)
        obtain ⟨s, pst, d1, d2, d3⟩ := b2 i c x hc hx
        rw [hx, List.getElem?_map, hp, d3, (c2 i c p hc hp).2 s pst d1 d2]
        rfl
      · rw [List.getElem?_eq_none (by omega), List.getElem?_eq_none (by simp; omega)]
    rw [b4, hcosts, hhl]
    have hmap : List.replicate cfg.bayesianHistoryLength.toNat Arith.xr.one ++ v.chars.map costOf =
        (List.replicate cfg.bayesianHistoryLength.toNat 1 ++ v.chars).map costOf := by
      rw [List.map_append, List.map_replicate, costOf_one]
    rw [hmap, lastN_map, (rowSum_costOf _).1, lastN_padded]
    intro p hp
    rcases List.mem_append.1 (List.mem_of_mem_drop hp) with hp | hp
    · rw [List.eq_of_mem_replicate hp]; norm_num
    · exact hnn v (List.mem_of_getElem? hv) p hp
end

/-! ## Non-vacuity: a component that reacts to updates -/

namespace RefreshDemo

/-- Natural numbers as costs. -/
def nat : Arith where
  C := Nat
  D := Nat
  one := 0
  inf := 100
  nls a _ := a
  nld a _ := a
  times := (· + ·)
  over a _ := a
  ge _ _ := true
  isInf _ := false
  cost d := d
  prob c := c
  ofInt _ := 0
  dadd := (· + ·)
  dmul := (· + ·)
  ddiv a _ := a
  dlt _ _ := false
  dle _ _ := true

/-- A component that remembers how often it was updated, whose states are text lengths and which gives every
character the cost ten times its number of updates plus the length of the text before. -/
def toy : Env nat Nat where
  start _ := 0
  next m s _ := (s + 1, m)
  extract m _ := (none, m)
  symScore m s _ := (10 * m + s.toNat, m)
  update m _ _ _ := (true, m + 1)
  orderN := id
  orderV := id

theorem toy_fair : toy.Fair := ⟨fun _ => .refl _, fun _ => .refl _⟩

theorem toy_steady : toy.toLMOps.Steady (fun _ => True) (fun _ _ => True) where
  closed := by constructor <;> intros <;> trivial
  next _ _ _ _ _ _ _ _ := rfl
  extract _ _ _ _ _ _ _ := rfl
  score _ _ _ _ _ _ _ _ := rfl

def cfg : HubConfig Nat := { mixture := .interpolation, weights := [0, 0], bayesianHistoryLength := 2, maxStates := 10 }

/-- After two updates the third brings the histories along the text to the costs current at its time. -/
example : ∃ h h' : Hub nat Nat, Reach toy [0, 3] cfg [.update 0 [97, 98] 1, .update 0 [97, 98] 1] h ∧ 0 < h.hlen ∧
    h.states.length + [97, 98].length ≤ h.max ∧ updateLMCounts toy h 0 [97, 98] 1 = .ok (true, h') ∧
    h'.selfRecycled = false ∧
    (h.states[2]?.map (·.hist)) = some ([[10, 11], [40, 41]] : List (List Nat)) ∧
    (h'.states[2]?.map (·.hist)) = some ([[20, 21], [50, 51]] : List (List Nat)) :=
  ⟨_, _, ⟨_, rfl, rfl⟩, by decide, by decide, rfl, rfl, rfl, rfl⟩

end RefreshDemo

end Mozolm.Hub

namespace Mozolm.System
variable {A : Arith} {encode : Int → Str}

/-- **C75** (components) Whatever bigram, PPM, character and word n-gram models are mixed: in a history of calls
that does not fill the state buffer, counting a text at the start state brings the histories along it up to
date. -/
theorem C75_components {models : List (Component A)} (hs : ∀ m ∈ models, Served encode m) :
    ∃ bound, ∀ fuel, bound ≤ fuel → ∀ orderN orderV, (env A encode fuel orderN orderV).Fair →
      ∀ cfg calls h h', Hub.Reach (env A encode fuel orderN orderV) models cfg calls h → 0 < h.hlen →
        ∀ cs, (∀ c ∈ cs, 0 ≤ c) → 1 + (calls.map Hub.Call.symbols).sum + 2 * cs.length ≤ Hub.cfgMax cfg → ∀ n r,
        Hub.updateLMCounts (env A encode fuel orderN orderV) h 0 cs n = .ok (r, h') →
        ∃ (t : Nat) (h1 : Hub.Hub A (Component A)),
          Hub.contextState (env A encode fuel orderN orderV) h cs 0 = .ok ((t : Int), h1) ∧
          ∀ len, 0 < len → len ≤ cs.length → ∃ (q : Nat) (qst : Hub.HubState A.C),
            Hub.contextState (env A encode fuel orderN orderV) h' (cs.take len) 0 = .ok ((q : Int), h') ∧
            h'.states[q]? = some qst ∧
            ∀ (j : Nat) (m : Component A), h1.models[j]? = some m → ∃ costs, costs.length = len ∧
              (∀ (i : Nat) c x, cs[i]? = some c → costs[i]? = some x → ∃ (p : Nat) (pst : Hub.HubState A.C),
                Hub.contextState (env A encode fuel orderN orderV) h1 (cs.take i) 0 = .ok ((p : Int), h1) ∧
                h1.states[p]? = some pst ∧ x = (symScore encode fuel m (pst.modelState j) c).1) ∧
              qst.hist[j]? = some (Hub.lastN h.hlen (List.replicate h.hlen A.one ++ costs)) ∧
              qst.histSum[j]? = some (Hub.rowSum A (Hub.lastN h.hlen (List.replicate h.hlen A.one ++ costs))) := by
  obtain ⟨bound, hb⟩ := served_live hs
  refine ⟨bound, fun fuel hfu orderN orderV hf cfg calls h h' hr hpos cs hcs hfew n r he => ?_⟩
  have hr' : Hub.Reach (env A encode fuel orderN orderV) models cfg (calls ++ [.update 0 cs n]) h' := by
    obtain ⟨h0, e0, e1⟩ := hr
    exact ⟨h0, e0, by rw [Server.run_append, e1, ok_bind]; simp only [Hub.run, Hub.step, he, ok_bind]⟩
  have hsum : 1 + ((calls ++ [Hub.Call.update 0 cs n]).map Hub.Call.symbols).sum ≤ Hub.cfgMax cfg := by
    simp only [List.map_append, List.sum_append, List.map_cons, List.map_nil, List.sum_cons, List.sum_nil,
      Hub.Call.symbols]
    omega
  have hi := Hub.initial_inv (env A encode fuel orderN orderV) models (Hub.cfgWeights cfg) (Hub.cfgHlen cfg)
    (Hub.cfgMax_ge cfg)
  have hinit : ∀ {calls : List Hub.Call} {h}, Hub.Reach (env A encode fuel orderN orderV) models cfg calls h →
      Hub.run (env A encode fuel orderN orderV) (Hub.initial (env A encode fuel orderN orderV) models
        (Hub.cfgWeights cfg) (Hub.cfgHlen cfg) (Hub.cfgMax cfg)) calls = .ok h := by
    rintro calls h ⟨h0, e0, e1⟩
    rw [Hub.initialize_eq hf] at e0
    split at e0
    · cases e0
    · simp only [Except.ok.injEq, Option.some.injEq] at e0
      subst e0
      exact e1
  have f1 := Hub.run_few hf hi (by show 1 + _ ≤ Hub.cfgMax cfg; omega) (hinit hr)
  have f2 := Hub.run_few hf hi (by show 1 + _ ≤ Hub.cfgMax cfg; exact hsum) (hinit hr')
  have hm : h.max = Hub.cfgMax cfg := (Hub.reach_good hf hr).const.max
  have hl : h.states.length ≤ 1 + (calls.map Hub.Call.symbols).sum := f1.1
  exact Hub.C75_from_start hf (steady A encode fuel) (hb fuel hfu) hr hpos hcs (.inl (by omega)) he f2.2

set_option maxRecDepth 20000 in
/-- C75: one component of each kind, with Bayesian history, at the second count of the same text -/
example : ∃ (models : List (Component Arith.xr)) (fuel : Nat) (cfg : Hub.HubConfig XR) (h h' : Hub.Hub Arith.xr (Component Arith.xr))
    (r : Bool), models.length = 4 ∧ (∀ m ∈ models, Served demoEncode m) ∧
    Hub.Reach (env Arith.xr demoEncode fuel id id) models cfg [.update 0 [97, 98] 3] h ∧ 0 < h.hlen ∧
    1 + ([Hub.Call.update 0 [97, 98] 3].map Hub.Call.symbols).sum + 2 * [97, 98].length ≤ Hub.cfgMax (A := Arith.xr) cfg ∧
    Hub.updateLMCounts (env Arith.xr demoEncode fuel id id) h 0 [97, 98] 3 = .ok (r, h') := by
  obtain ⟨models, hl, hs, hk, _⟩ := demo_served
  obtain ⟨b1, hb1⟩ := C72_calls_complete hs (by omega)
  have hf : (env Arith.xr demoEncode b1 id id).Fair := ⟨fun _ => .refl _, fun _ => .refl _⟩
  let cfg : Hub.HubConfig XR :=
    { mixture := .interpolation, weights := [.fin 0, .fin 0, .fin 0, .fin 0], bayesianHistoryLength := 2, maxStates := 10 }
  have hcfg : cfg.mixture = .interpolation → cfg.weights.length ≤ models.length := fun _ => by rw [hl]; decide
  obtain ⟨h0, hr0⟩ : ∃ h0, Hub.Reach (env Arith.xr demoEncode b1 id id) models cfg [] h0 :=
    ⟨_, _, by rw [Hub.initialize_eq hf, if_neg (by decide)], rfl⟩
  have hv : ∀ {calls h}, Hub.Reach (env Arith.xr demoEncode b1 id id) models cfg calls h → h.valid 0 = true := by
    intro calls h hr
    have := (Hub.reach_good hf hr).inv.pos
    rw [Server.valid_iff]; omega
  obtain ⟨h1, e1⟩ := hb1 _ (by omega) _ _ hf cfg [] h0 hcfg hr0 (.update 0 [97, 98] 3) (fun s cs n h => by
    cases h; exact Or.inr ⟨hv hr0, by decide⟩)
  have hr1 : Hub.Reach (env Arith.xr demoEncode b1 id id) models cfg [.update 0 [97, 98] 3] h1 := by
    obtain ⟨x, i0, i1⟩ := hr0
    cases i1
    exact ⟨_, i0, by simp only [Hub.run, e1, ok_bind]⟩
  obtain ⟨h2, e2⟩ := hb1 _ (by omega) _ _ hf cfg _ h1 hcfg hr1 (.update 0 [97, 98] 3) (fun s cs n h => by
    cases h; exact Or.inr ⟨hv hr1, by decide⟩)
  simp only [Hub.step] at e2
  obtain ⟨⟨r, h2'⟩, e3, _⟩ := bind_ok.1 e2
  refine ⟨models, b1, cfg, h1, h2', r, hl, hs, hr1, ?_, by decide, e3⟩
  rw [(Hub.reach_good hf hr1).const.hlen]
  show 0 < 2
  decide

end Mozolm.System
