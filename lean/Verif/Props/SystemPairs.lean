import Verif.System.PairsServer
import Verif.Props.System
import Verif.Props.BigramNumeric

/-!
# C84: a server with a bigram component is a table of pair counts

The table, and what requests should make of it, are in `System/PairSpec.lean`.
-/

namespace Mozolm.System
open Mozolm.Hub Mozolm.Server
variable {A : Arith} {encode : Int → Str} {fuel : Nat} {m0 : Bigram.Model}
  {orderN : List (Int × Nat) → List (Int × Nat)} {orderV : List (Str × A.C) → List (Str × A.C)}
  {models : List (Component A)} {cfg : HubConfig A.C} {reqs : List Request} {V : List Int} {T : Pairs}
  {h h' : Hub A (Component A)} {j : Nat}

/-- The server at the beginning. -/
theorem tallied_initial (hlive : ∀ m ∈ models, live encode fuel m) (hj : models[j]? = some (.bigram m0))
    {ws : List A.C} (hw : j < ws.length) (hlen : Nat) {mx : Nat} (hmx : 10 ≤ mx) :
    Tallied encode fuel orderN orderV j m0.utf8 (tableOf m0) (initial (env A encode fuel orderN orderV) models ws hlen mx) := by
  have hc := closedOn A encode fuel
  have hwf : Bigram.WF m0 := hlive _ (List.mem_of_getElem? hj)
  have ho := initial_own (env := env A encode fuel orderN orderV) hc hlive ws hlen hmx
  refine ⟨ho, ⟨_, rfl, rfl, rfl, rfl⟩, initial_linked _ _ _ _, hw, ⟨ho.works, fun m hm i st hst => ?_⟩, fun _ => ⟨m0, hj, holds_tableOf hwf⟩⟩
  have hm' : models[j]? = some (.bigram m) := hm
  rw [hj] at hm'; cases hm'
  cases i with
  | zero =>
    simp only [initial, List.getElem?_cons_zero, Option.some.injEq] at hst
    subst hst
    have : (HubState.mk' A (models.map (env A encode fuel orderN orderV).start) (-1) 0 hlen).modelState j = 0 := by
      simp only [HubState.modelState, HubState.mk', List.getElem?_map, hj, Option.map_some]
      rfl
    rw [this]
    show Bigram.stands m0.utf8 0 = rowOf m0.utf8 0
    rw [rowOf_zero hwf]
    simp [Bigram.stands]
  | succ i => simp [initial] at hst

/-- A history of requests. -/
theorem Tallied.serveAll (hf : (env A encode fuel orderN orderV).Fair) (reqs : List Request) :
    ∀ {h : Hub A (Component A)} {T : Pairs}, Tallied encode fuel orderN orderV j V T h →
    Server.serveAll (env A encode fuel orderN orderV) h reqs = .ok h' →
    ∃ T' : Pairs, Counted (env A encode fuel orderN orderV) V h T reqs h' T' ∧ Tallied encode fuel orderN orderV j V T' h' ∧
      ((∀ s cs n, Request.updateLMScores s cs n ∈ reqs → toInt32 s = 0) → T' = T.strings V reqs) := by
  induction reqs with
  | nil =>
    intro h T hr he
    cases he
    exact ⟨T, .nil, hr, fun _ => rfl⟩
  | cons r rs ih =>
    intro h T hr he
    obtain ⟨h1, e1, e2⟩ := bind_ok.1 he
    obtain ⟨T1, k1, k2⟩ := hr.serve hf e1
    obtain ⟨T2, l1, l2, l3⟩ := ih k2 e2
    refine ⟨T2, .cons e1 k1 l1, l2, fun h0 => ?_⟩
    rw [l3 fun s cs n hm => h0 s cs n (List.mem_cons_of_mem _ hm)]
    cases r with
    | getNextState ctx s => cases k1; rfl
    | getLMScores ctx s => cases k1; rfl
    | updateLMScores s cs n =>
      have hz := h0 s cs n List.mem_cons_self
      have hpos := hr.own.inv.pos
      rcases k1 with ⟨hv, _⟩ | ⟨_, c, _, hc, hT⟩
      · omega
      · rw [hT, hc hz]; rfl

/-- The server after any history. -/
theorem tallied_reach (hf : (env A encode fuel orderN orderV).Fair)
    (hlive : ∀ m ∈ models, live encode fuel m) (hj : models[j]? = some (.bigram m0)) (hw : j < (cfgWeights (A := A) cfg).length)
    (hr : Server.Reach (env A encode fuel orderN orderV) models cfg reqs h) :
    ∃ (h0 : Hub A (Component A)) (T : Pairs),
      initializeModels (env A encode fuel orderN orderV) models cfg = .ok (some h0) ∧
      Counted (env A encode fuel orderN orderV) m0.utf8 h0 (tableOf m0) reqs h T ∧
      Tallied encode fuel orderN orderV j m0.utf8 T h ∧
      ((∀ s cs n, Request.updateLMScores s cs n ∈ reqs → toInt32 s = 0) → T = (tableOf m0).strings m0.utf8 reqs) ∧
      h.max = cfgMax (A := A) cfg ∧ h.weights = cfgWeights (A := A) cfg := by
  have g := hr.good hf
  obtain ⟨h0, e1, e2⟩ := hr
  have e1' := e1
  rw [initialize_eq hf] at e1
  split at e1
  · cases e1
  · simp only [Except.ok.injEq, Option.some.injEq] at e1
    subst e1
    have r0 := tallied_initial (orderN := orderN) (orderV := orderV) hlive hj hw (cfgHlen (A := A) cfg) (cfgMax_ge (A := A) cfg)
    obtain ⟨T, k1, k2, k3⟩ := r0.serveAll hf reqs e2
    exact ⟨_, T, e1', k1, k2, k3, g.const.max, g.const.weights⟩

theorem single_weight (hcfg : cfg.mixture = .interpolation → cfg.weights.length < 2) : (cfgWeights (A := A) cfg).length = 1 := by
  unfold cfgWeights
  split
  · next h => have := hcfg h.1; omega
  · rfl

/-- The state for a text is one with the last character of the text. -/
theorem Tallied.names (hf : (env A encode fuel orderN orderV).Fair) (hr : Tallied encode fuel orderN orderV j V T h) :
    PairsNamed (env A encode fuel orderN orderV) h := by
  intro text x ht hx rep h1 he
  have hfg : (penv A encode fuel orderN orderV).Fair := hf.guard
  rw [getNextState_guard hf (closedOn A encode fuel) hr.own] at he
  change Server.getNextState (penv A encode fuel orderN orderV) h text x = .ok (rep, h1) at he
  obtain ⟨⟨r, h2⟩, e1, e2⟩ := bind_ok.1 he
  simp only [Except.ok.injEq, Prod.mk.injEq] at e2
  obtain ⟨rfl, rfl⟩ := e2
  simp only [contextState] at e1
  cases hlast : text.getLast? with
  | some c =>
    obtain ⟨k, kst, rfl, k1, k2⟩ := contextLoop_last hfg hr.own.inv ht e1 c hlast
    have := lt_of_getElem?_eq_some k1
    refine ⟨k, rfl, by omega, by omega, ?_⟩
    rw [stateSym_get k1, k2]
    simp only [lastAt, hlast]
  | none =>
    have hnil : text = [] := List.getLast?_eq_none_iff.1 hlast
    subst hnil
    simp only [contextLoop, Except.ok.injEq, Prod.mk.injEq] at e1
    obtain ⟨e1, rfl⟩ := e1
    have hpos := hr.own.inv.pos
    have hx' : toInt32 x < h.states.length := by
      by_contra hh
      exact hx ⟨rfl, by omega⟩
    simp only [lastAt, List.getLast?_nil]
    refine ⟨r, rfl, by split at e1 <;> omega, by split at e1 <;> omega, ?_⟩
    split at e1
    · next hneg => rw [if_pos hneg, ← e1]; exact stateSym_zero hr.start
    · next hneg => rw [if_neg hneg, e1]

/-- All counts of the table are positive. -/
theorem HoldsPairs.pos {m : Bigram.Model} (hh : HoldsPairs V T m) {a b : Int} (ha : a ∈ V) (hb : b ∈ V) : 1 ≤ T a b := by
  obtain ⟨i, hi⟩ := List.mem_iff_getElem?.1 ha
  have hrow := hh.row hi
  exact (hh.wf.pos _ (List.mem_of_getElem? hrow) (T a b) (List.mem_map_of_mem hb)).1

/-- **C84** Of a server in front of any models, among them a bigram model with a weight: after any history of requests,
its counts are those it started with and, for each update request at a state of the server, the pairs of the
request's text as often as the request says, after some character (the last one of the state, while there is room in
the state buffer; the beginning of a text, at state 0), and nothing else; and as long as the counts are in the range of
`int64_t` it answers as that table. -/
theorem C84_table (hs : ∀ m ∈ models, Served encode m) (hj : models[j]? = some (.bigram m0)) :
    ∃ bound, ∀ fuel, bound ≤ fuel → ∀ orderN orderV, (env A encode fuel orderN orderV).Fair →
      ∀ (cfg : HubConfig A.C) reqs h, j < (cfgWeights (A := A) cfg).length →
        Server.Reach (env A encode fuel orderN orderV) models cfg reqs h →
        ∃ (h0 : Hub A (Component A)) (T : Pairs),
          initializeModels (env A encode fuel orderN orderV) models cfg = .ok (some h0) ∧
          Counted (env A encode fuel orderN orderV) m0.utf8 h0 (tableOf m0) reqs h T ∧
          ((∀ s cs n, Request.updateLMScores s cs n ∈ reqs → toInt32 s = 0) → T = (tableOf m0).strings m0.utf8 reqs) ∧
          (T.Within m0.utf8 → ∃ m : Bigram.Model, h.models[j]? = some (.bigram m) ∧
            (∀ a ∈ m0.utf8, ∀ b ∈ m0.utf8, 1 ≤ T a b) ∧
            ∀ s c, Bigram.extractLMScores A encode m (Bigram.nextState m s c) = .ok (T.reply A encode m0.utf8 c)) := by
  obtain ⟨bound, hb⟩ := served_live hs
  refine ⟨bound, fun fuel hfu orderN orderV hf cfg reqs h hw hr => ?_⟩
  obtain ⟨h0, T, k1, k2, k3, k4, _⟩ := tallied_reach hf (hb fuel hfu) hj hw hr
  refine ⟨h0, T, k1, k2, k4, fun hT => ?_⟩
  obtain ⟨m, k5, k6⟩ := k3.holds hT
  refine ⟨m, k5, fun a ha b hb => k6.pos ha hb, fun s c => k6.extract A encode ?_⟩
  have := stands_next k6.wf s c
  rw [k6.vocab] at this
  exact this

/-- **C84** With the bigram model alone: after any history of requests there is such a table; the scores after a text
are the shares of the counts after its last character; the state for a text is one with that character; and teaching
at a state with room is counting after the state's character, the reply being made of the new counts. -/
theorem C84_server (hs : ∀ m ∈ models, Served encode m) (hms : models.head? = some (.bigram m0)) :
    ∃ bound, ∀ fuel, bound ≤ fuel → ∀ orderN orderV, (env A encode fuel orderN orderV).Fair →
      ∀ (cfg : HubConfig A.C) reqs h, (cfg.mixture = .interpolation → cfg.weights.length < 2) →
        Server.Reach (env A encode fuel orderN orderV) models cfg reqs h →
        ∃ (h0 : Hub A (Component A)) (T : Pairs),
          initializeModels (env A encode fuel orderN orderV) models cfg = .ok (some h0) ∧
          Counted (env A encode fuel orderN orderV) m0.utf8 h0 (tableOf m0) reqs h T ∧
          ((∀ s cs n, Request.updateLMScores s cs n ∈ reqs → toInt32 s = 0) → T = (tableOf m0).strings m0.utf8 reqs) ∧
          (T.Within m0.utf8 → PairsAsked (env A encode fuel orderN orderV) encode m0.utf8 T h) ∧
          PairsTaught (env A encode fuel orderN orderV) encode m0.utf8 T h ∧
          PairsNamed (env A encode fuel orderN orderV) h := by
  obtain ⟨bound, hb⟩ := served_live hs
  refine ⟨bound, fun fuel hfu orderN orderV hf cfg reqs h hcfg hr => ?_⟩
  have hw := single_weight (A := A) hcfg
  obtain ⟨h0, T, k1, k2, k3, k4, _, k5⟩ := tallied_reach hf (hb fuel hfu) (j := 0) (by rw [← hms, List.head?_eq_getElem?]) (by omega) hr
  exact ⟨h0, T, k1, k2, k4, fun hT => k3.asks hf hT (by rw [k5]; omega), k3.teaches hf (by rw [k5]; omega), k3.names hf⟩

/-- **C84** With real numbers: as all counts are positive, the probabilities of a reply are positive, one for each
character of the vocabulary, and sum to one. -/
theorem C84_shares (hne : V ≠ []) (hpos : ∀ a ∈ V, ∀ b ∈ V, 1 ≤ T a b) (c : Int) :
    ∃ ps : List ℝ, (T.reply Arith.xr encode V c).probs = ps.map XR.fin ∧
      ps = (V.map fun b => (T (under V c) b : ℝ) / (T.total V (under V c) : ℝ)) ∧
      (T.reply Arith.xr encode V c).symbols = V.map encode ∧ (∀ p ∈ ps, 0 < p) ∧ ps.sum = 1 := by
  have hu := under_mem hne c
  have htot : 0 < T.total V (under V c) := by
    refine Bigram.row_sum_pos (by simpa using hne) fun x hx => ?_
    obtain ⟨b, hb, rfl⟩ := List.mem_map.1 hx
    exact hpos _ hu b hb
  have htotR : (0 : ℝ) < (T.total V (under V c) : ℝ) := by exact_mod_cast htot
  refine ⟨_, ?_, rfl, rfl, fun p hp => ?_, ?_⟩
  · simp only [Pairs.reply, List.map_map]
    refine List.map_congr_left fun b _ => ?_
    exact Bigram.div_fin htotR.ne'
  · obtain ⟨b, hb, rfl⟩ := List.mem_map.1 hp
    have : (1 : ℝ) ≤ (T (under V c) b : ℝ) := by exact_mod_cast hpos _ hu b hb
    positivity
  · have : (V.map fun b => (T (under V c) b : ℝ) / (T.total V (under V c) : ℝ)) =
        ((V.map (T (under V c))).map fun x : Int => (x : ℝ)).map fun x => x / (T.total V (under V c) : ℝ) := by
      rw [List.map_map, List.map_map]; rfl
    rw [this, Scores.sum_map_div, ← Bigram.cast_sum]
    exact div_self htotR.ne'

end Mozolm.System
