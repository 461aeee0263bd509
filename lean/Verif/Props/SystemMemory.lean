import Verif.System.LearningServer
import Verif.Props.PpmMemoryRead

/-!
# C77: a server with a PPM component that learns is a memory of contexts

The memory is in `Ppm/MemorySpec.lean`, what requests should make of it in `System/MemorySpec.lean`.
-/

namespace Mozolm.System
open Mozolm.Hub Mozolm.Server
open Mozolm.Ppm (Keeps Memory Learner)
variable {encode : Int → Str} {fuel : Nat} {o : Ppm.Options XR} {K : Nat} {M M0 : Memory} {ctxs : List (List Int)} {m0 : Ppm.Model Arith.xr}
  {orderN : List (Int × Nat) → List (Int × Nat)} {orderV : List (Str × XR) → List (Str × XR)}
  {models : List (Component Arith.xr)} {cfg : HubConfig XR} {reqs : List Request}
  {h h' : Hub Arith.xr (Component Arith.xr)} {j : Nat}

/-- The server at the beginning. -/
theorem ready_initial (hl : Learner o K M0 m0) (hlive : ∀ m ∈ models, live encode fuel m) (hj : models[j]? = some (.ppm m0))
    {ws : List XR} (hw : j < ws.length) (hlen : Nat) {mx : Nat} (hmx : 10 ≤ mx) :
    ∃ ctxs, Ready encode fuel orderN orderV K m0 j M0 ctxs (initial (env Arith.xr encode fuel orderN orderV) models ws hlen mx) := by
  obtain ⟨ctxs, hk⟩ := hl.keeps (encode := encode)
  have hc := closedOn Arith.xr encode fuel
  have ho := initial_own (env := env Arith.xr encode fuel orderN orderV) hc hlive ws hlen hmx
  refine ⟨ctxs, ho, ⟨_, rfl, rfl, rfl, rfl⟩, initial_linked _ _ _ _, hw, ⟨ho.works, ho.all, fun _ => ⟨fun _ => [], rfl, ?_, ?_⟩⟩, m0, hj, hk⟩
  · intro i st m hst hm
    have hm' : models[j]? = some m := hm
    rw [hj] at hm'; cases hm'
    cases i with
    | zero =>
      simp only [initial, List.getElem?_cons_zero, Option.some.injEq] at hst
      subst hst
      refine ⟨m0, M0, ctxs, m0.core.fst.start, [0], rfl, hk, ?_, hk.holds.start, by simp [Ppm.Alphabet.past]⟩
      simp only [HubState.modelState, HubState.mk', List.getElem?_map, hj, Option.map_some]
      rfl
    | succ i => simp [initial] at hst
  · intro i st hst c k hck
    cases i with
    | zero =>
      simp only [initial, List.getElem?_cons_zero, Option.some.injEq] at hst
      subst hst
      simp [HubState.mk'] at hck
    | succ i => simp [initial] at hst

/-- A history of requests. -/
theorem Ready.serveAll (hf : (env Arith.xr encode fuel orderN orderV).Fair) (hl : Learner o K M0 m0) (reqs : List Request) :
    ∀ {h : Hub Arith.xr (Component Arith.xr)} {M : Memory} {ctxs : List (List Int)}, Ready encode fuel orderN orderV K m0 j M ctxs h →
    Server.serveAll (env Arith.xr encode fuel orderN orderV) h reqs = .ok h' →
    ∃ (M' : Memory) (ctxs' : List (List Int)),
      Taught (env Arith.xr encode fuel orderN orderV) K (Ppm.alphabet m0.symbols encode) h M reqs h' M' ∧
      Ready encode fuel orderN orderV K m0 j M' ctxs' h' := by
  induction reqs with
  | nil =>
    intro h M ctxs hr he
    cases he
    exact ⟨M, ctxs, .nil, hr⟩
  | cons r rs ih =>
    intro h M ctxs hr he
    obtain ⟨h1, e1, e2⟩ := bind_ok.1 he
    obtain ⟨M1, ctxs1, k1, k2⟩ := hr.serve hf hl.alpha hl.beta hl.initial hl.adaptive e1
    obtain ⟨M2, ctxs2, l1, l2⟩ := ih k2 e2
    exact ⟨M2, ctxs2, .cons e1 k1 l1, l2⟩

/-- The server after any history. -/
theorem ready_reach (hf : (env Arith.xr encode fuel orderN orderV).Fair) (hl : Learner o K M0 m0)
    (hlive : ∀ m ∈ models, live encode fuel m) (hj : models[j]? = some (.ppm m0)) (hw : j < (cfgWeights (A := Arith.xr) cfg).length)
    (hr : Server.Reach (env Arith.xr encode fuel orderN orderV) models cfg reqs h) :
    ∃ (h0 : Hub Arith.xr (Component Arith.xr)) (M : Memory) (ctxs : List (List Int)),
      initializeModels (env Arith.xr encode fuel orderN orderV) models cfg = .ok (some h0) ∧
      Taught (env Arith.xr encode fuel orderN orderV) K (Ppm.alphabet m0.symbols encode) h0 M0 reqs h M ∧
      Ready encode fuel orderN orderV K m0 j M ctxs h ∧ h.max = cfgMax (A := Arith.xr) cfg ∧ h.weights = cfgWeights (A := Arith.xr) cfg := by
  have g := hr.good hf
  obtain ⟨h0, e1, e2⟩ := hr
  have e1' := e1
  rw [initialize_eq hf] at e1
  split at e1
  · cases e1
  · simp only [Except.ok.injEq, Option.some.injEq] at e1
    subst e1
    obtain ⟨ctxs0, r0⟩ := ready_initial (orderN := orderN) (orderV := orderV) hl hlive hj hw (cfgHlen (A := Arith.xr) cfg) (cfgMax_ge (A := Arith.xr) cfg)
    obtain ⟨M, ctxs, k1, k2⟩ := r0.serveAll hf hl reqs e2
    exact ⟨_, M, ctxs, e1', k1, k2, g.const.max, g.const.weights⟩

/-- The entry for a text names a context that the text ends with. -/
theorem Ready.context (hf : (env Arith.xr encode fuel orderN orderV).Fair) (hl : Learner o K M0 m0)
    (hr : Ready encode fuel orderN orderV K m0 j M ctxs h) {text : List Int} (ht : ∀ c ∈ text, 0 ≤ c) {r : Int}
    (he : contextLoop (genv encode fuel orderN orderV) h 0 text = .ok (r, h')) (hg : h'.selfRecycled = false) :
    ∃ (k : Nat) (c : List Int), r = k ∧ Ready encode fuel orderN orderV K m0 j M ctxs h' ∧ NameAt j ctxs c h' k ∧ M.known c ∧
      c <+: (Ppm.alphabet m0.symbols encode).past text ∧ (text = [] → c = [0]) ∧ Good (genv encode fuel orderN orderV) h h' := by
  have hfg : (genv encode fuel orderN orderV).Fair := hf.guard
  obtain ⟨_, _, e2, g, _⟩ := contextLoop_ok hfg hr.own.inv 0 text
  rw [he] at e2; cases e2
  have hr' := hr.touches hf hl.alpha hl.beta hl.initial hl.adaptive g (Hub.contextLoop_touches hfg hr.own.inv he)
  obtain ⟨lab, hlab⟩ := hr.origins.labels (ghost_false g hg)
  have hrt := stems_roots (encode := encode) (fuel := fuel) (K := K) hl.alpha hl.beta hl.initial hl.adaptive
  obtain ⟨k, lab', f1, f2, f3, f4⟩ := contextLoop_labelled (env := env Arith.xr encode fuel orderN orderV) hf hrt hr.own hlab
    (s := 0) hr.own.inv.pos ht he hg
  obtain ⟨st, hst⟩ := exists_getElem?_of_lt f2
  obtain ⟨m, hm, hk⟩ := hr'.holds
  obtain ⟨m2, M2, ctxs2, q, c, e1, e2, e3, e4, e5⟩ := f3.holds k st _ hst hm
  cases e1
  rw [f4, hlab.zero, List.nil_append] at e5
  obtain ⟨ord, u, hinv, _⟩ := hk.inv hl.alpha hl.beta hl.initial
  have hcc := e2.holds.unique hk.holds e2.grounded hk.grounded hinv.wf
  subst hcc
  have hn : NameAt j ctxs2 c h' k := ⟨st, q, hst, e3, e4⟩
  refine ⟨k, c, f1, hr', hn, hk.holds.known e4, e5, fun h0 => ?_, g⟩
  subst h0
  cases he
  have : k = 0 := by omega
  subst this
  exact hn.unique hr'.zero

theorem start_of {x : Int} (h0 : -2 ^ 31 ≤ x) (h1 : x ≤ 0) : (if toInt32 x < 0 then 0 else toInt32 x) = 0 := by
  rw [toInt32_of_range (by omega) (by omega)]
  split <;> omega

/-- Asking. -/
theorem Ready.asks (hf : (env Arith.xr encode fuel orderN orderV).Fair) (hl : Learner o K M0 m0)
    (hr : Ready encode fuel orderN orderV K m0 0 M ctxs h) (hw : h.weights.length < 2) :
    AsksWell (env Arith.xr encode fuel orderN orderV) o (Ppm.alphabet m0.symbols encode) m0.symbols m0.chars M h := by
  intro text ht x hx0 hx1 rep h2 he hg
  rw [getLMScores_guard hf (closedOn Arith.xr encode fuel) hr.own] at he
  change Server.getLMScores (genv encode fuel orderN orderV) h text x = .ok (rep, h2) at he
  obtain ⟨⟨r, h1⟩, e1, e2⟩ := bind_ok.1 he
  obtain ⟨⟨y, h3⟩, e3, e4⟩ := bind_ok.1 e2
  simp only [contextState, start_of hx0 hx1] at e1
  have e94 : h3 = h2 ∧ rep = (match y with | some r => .ok r | none => .invalidArgument) := by
    cases y <;> (cases e4; exact ⟨rfl, rfl⟩)
  obtain ⟨rfl, hrep⟩ := e94
  have hgi := (contextLoop_ok (hf.guard : (genv encode fuel orderN orderV).Fair) hr.own.inv 0 text)
  obtain ⟨_, _, e1', g1, _⟩ := hgi
  rw [e1] at e1'; cases e1'
  obtain ⟨k, c, rfl, hr1, hn, hkn, hpre, h0, _⟩ := hr.context hf hl ht e1 (ghost_false (extract_good g1.inv e3) hg)
  obtain ⟨s, h4, q1, q2⟩ := hr1.tells hl.alpha hl.beta hl.initial hl.totals (by rw [g1.const.weights]; exact hw) hn
  rw [e3] at q1; cases q1
  exact ⟨s, c, hrep, hkn, hpre, h0, q2⟩

/-- Asking along a path that is in the table. -/
theorem Ready.asks_path (hf : (env Arith.xr encode fuel orderN orderV).Fair) (hl : Learner o K M0 m0)
    (hr : Ready encode fuel orderN orderV K m0 0 M ctxs h) (hw : h.weights.length < 2) {x : Int} {s k : Nat} (hx : toInt32 x = s)
    {pre : List Int} (hp : IsPath h s pre k) {c : List Int} (hn : NameAt 0 ctxs c h k) :
    ∃ (r : LMScores XR) (h3 : Hub Arith.xr (Component Arith.xr)),
      getLMScores (env Arith.xr encode fuel orderN orderV) h pre x = .ok (.ok r, h3) ∧ Tells o m0.symbols m0.chars M c r := by
  obtain ⟨r, h4, q1, q2⟩ := hr.tells hl.alpha hl.beta hl.initial hl.totals hw hn
  refine ⟨r, h4, ?_, q2⟩
  rw [getLMScores_guard hf (closedOn Arith.xr encode fuel) hr.own]
  change Server.getLMScores (genv encode fuel orderN orderV) h pre x = _
  simp only [Server.getLMScores, contextState, hx, if_neg (show ¬ ((s : Int) < 0) by omega), contextLoop_path hp, ok_bind, q1]

/-- Teaching. -/
theorem Ready.teaches (hf : (env Arith.xr encode fuel orderN orderV).Fair) (hl : Learner o K M0 m0)
    (hr : Ready encode fuel orderN orderV K m0 0 M ctxs h) (hw : h.weights.length < 2) (hmax : h.max < 2 ^ 31) :
    TeachesWell (env Arith.xr encode fuel orderN orderV) o K (Ppm.alphabet m0.symbols encode) m0.symbols m0.chars M h := by
  intro text ht x hx0 hx1 s' h1' he cs hcs hfit n rep h2 hu hg
  have hc := closedOn Arith.xr encode fuel
  have hfg : (genv encode fuel orderN orderV).Fair := hf.guard
  rw [getNextState_guard hf hc hr.own] at he
  change Server.getNextState (genv encode fuel orderN orderV) h text x = .ok (.ok s', h1') at he
  obtain ⟨⟨s, h1⟩, e1, e2⟩ := bind_ok.1 he
  simp only [Except.ok.injEq, Prod.mk.injEq, Reply.ok.injEq] at e2
  obtain ⟨rfl, rfl⟩ := e2
  simp only [contextState, start_of hx0 hx1] at e1
  obtain ⟨_, _, e1', g1, _⟩ := contextLoop_ok hfg hr.own.inv 0 text
  rw [e1] at e1'; cases e1'
  have ho1 := hr.own.good hf hc g1
  have hu' := hu
  rw [updateLMScores_guard hf hc ho1] at hu'
  change Server.updateLMScores (genv encode fuel orderN orderV) h1 s cs n = .ok (rep, h2) at hu'
  have g2 : Good (genv encode fuel orderN orderV) h1 h2 := by
    obtain ⟨⟨w, ha⟩, e1, e2⟩ := bind_ok.1 hu'
    obtain ⟨⟨u, hb⟩, e3, e4⟩ := bind_ok.1 e2
    obtain ⟨_, _, e1', ga, _⟩ := walk_ok hfg g1.inv (toInt32 s) cs
    rw [e1] at e1'; cases e1'
    have gb := update_good hfg ga.inv e3
    refine ga.trans (gb.trans ?_)
    cases u with
    | false =>
      simp only [Bool.false_eq_true, if_false, Except.ok.injEq, Prod.mk.injEq] at e4
      rw [← e4.2]; exact Good.refl gb.inv
    | true =>
      simp only [if_true] at e4
      obtain ⟨⟨y, h4⟩, e8, e9⟩ := bind_ok.1 e4
      have := extract_good gb.inv e8
      cases y <;> (cases e9; exact this)
  obtain ⟨k, c, rfl, hr1, hn, hkn, hpre, h0, _⟩ := hr.context hf hl ht e1 (ghost_false g2 hg)
  have hlt : k < h1.states.length := by
    obtain ⟨st, q, a1, _⟩ := hn
    exact lt_of_getElem?_eq_some a1
  have hle := g1.inv.le
  have hm := g1.const.max
  have hk32 : toInt32 (k : Int) = k := toInt32_of_range (by omega) (by omega)
  rw [Int.toNat_natCast] at hfit
  obtain ⟨M', new, hM, hr2, hw2, hall, hrep⟩ := hr1.update hf hl.alpha hl.beta hl.initial hl.adaptive hk32 hcs hfit hn hu hg
  have hw1 : h1.weights.length < 2 := by rw [g1.const.weights]; exact hw
  have hM' : M' = counted K (Ppm.alphabet m0.symbols encode) M c cs n := hM
  subst hM'
  refine ⟨c, hkn, hpre, h0, hrep rfl hw1 hl.totals, fun pre post e => ?_⟩
  obtain ⟨q, p1, p2⟩ := hall pre post e
  exact hr2.asks_path hf hl (by rw [hw2]; exact hw1) hk32 p1 p2

theorem weights_single (hcfg : cfg.mixture = .interpolation → cfg.weights.length < 2) : (cfgWeights (A := Arith.xr) cfg).length = 1 := by
  unfold cfgWeights
  split
  · next h => have := hcfg h.1; omega
  · rfl

/-- A history of requests where all teaching is of whole strings. -/
theorem Ready.strings (hf : (env Arith.xr encode fuel orderN orderV).Fair) (hl : Learner o K M0 m0) (reqs : List Request)
    (h0 : ∀ s cs n, Request.updateLMScores s cs n ∈ reqs → toInt32 s = 0) :
    ∀ {h : Hub Arith.xr (Component Arith.xr)} {M : Memory} {ctxs : List (List Int)}, Ready encode fuel orderN orderV K m0 j M ctxs h →
    Server.serveAll (env Arith.xr encode fuel orderN orderV) h reqs = .ok h' →
    ∃ ctxs' : List (List Int), Ready encode fuel orderN orderV K m0 j
      (M.uses K m0.chars (Ppm.alphabet m0.symbols encode) (reqs.filterMap lesson)) ctxs' h' := by
  induction reqs with
  | nil =>
    intro h M ctxs hr he
    cases he
    exact ⟨ctxs, hr⟩
  | cons r rs ih =>
    intro h M ctxs hr he
    obtain ⟨h1, e1, e2⟩ := bind_ok.1 he
    obtain ⟨M1, ctxs1, k1, k2⟩ := hr.serve hf hl.alpha hl.beta hl.initial hl.adaptive e1
    obtain ⟨ctxs2, l2⟩ := ih (fun s cs n hm => h0 s cs n (List.mem_cons_of_mem _ hm)) k2 e2
    cases r with
    | getNextState ctx s =>
      have : M1 = M := k1
      subst this
      exact ⟨ctxs2, l2⟩
    | getLMScores ctx s =>
      have : M1 = M := k1
      subst this
      exact ⟨ctxs2, l2⟩
    | updateLMScores s cs n =>
      have hz := h0 s cs n List.mem_cons_self
      obtain ⟨m, _, hk⟩ := hr.holds
      have hlong : M.longest ((Ppm.alphabet m0.symbols encode).past []) = [0] := M.longest_self hk.grounded.nil hk.grounded.start
      have hM : M1 = M.use K m0.chars (Ppm.alphabet m0.symbols encode) (.learn [] cs n) := by
        simp only [Memory.use, hlong]
        rcases k1 with ⟨hv, _⟩ | ⟨c, _, hc, hM⟩
        · have := hr.own.inv.pos
          omega
        · rw [hM, hc hz]
      subst hM
      exact ⟨ctxs2, l2⟩

/-- **C77** Of a server in front of any models, among them a PPM model that learns with a weight: after any history of
requests, that model holds a memory made from the one it started with by learning, for each update request at a state
of the server, the characters of the request after some known context (after the beginning, at state 0), and by
nothing else; and it answers as that memory. -/
theorem C77_memory {models : List (Component Arith.xr)} (hs : ∀ m ∈ models, Served encode m) (hl : Learner o K M0 m0)
    (hj : models[j]? = some (.ppm m0)) :
    ∃ bound, ∀ fuel, bound ≤ fuel → ∀ orderN orderV, (env Arith.xr encode fuel orderN orderV).Fair →
      ∀ (cfg : HubConfig XR) reqs h, j < (cfgWeights (A := Arith.xr) cfg).length →
        Server.Reach (env Arith.xr encode fuel orderN orderV) models cfg reqs h →
        ∃ (h0 : Hub Arith.xr (Component Arith.xr)) (M : Memory) (m : Ppm.Model Arith.xr),
          initializeModels (env Arith.xr encode fuel orderN orderV) models cfg = .ok (some h0) ∧
          Taught (env Arith.xr encode fuel orderN orderV) K (Ppm.alphabet m0.symbols encode) h0 M0 reqs h M ∧
          h.models[j]? = some (.ppm m) ∧ Ppm.Answers o encode m0.symbols m0.chars M m := by
  obtain ⟨bound, hb⟩ := served_live hs
  refine ⟨bound, fun fuel hfu orderN orderV hf cfg reqs h hw hr => ?_⟩
  obtain ⟨h0, M, ctxs, k1, k2, k3, _⟩ := ready_reach hf hl (hb fuel hfu) hj hw hr
  obtain ⟨m, k4, k5⟩ := k3.holds
  exact ⟨h0, M, m, k1, k2, k4, k5.answers hl.alpha hl.beta hl.initial hl.totals⟩

/-- **C77** If all the update requests are at state 0, the model answers as a model on its own that was taught the same
strings in the same order (whatever else was asked), C76. -/
theorem C77_strings {models : List (Component Arith.xr)} (hs : ∀ m ∈ models, Served encode m) (hl : Learner o K M0 m0)
    (hj : models[j]? = some (.ppm m0)) :
    ∃ bound, ∀ fuel, bound ≤ fuel → ∀ orderN orderV, (env Arith.xr encode fuel orderN orderV).Fair →
      ∀ (cfg : HubConfig XR) reqs h, j < (cfgWeights (A := Arith.xr) cfg).length →
        Server.Reach (env Arith.xr encode fuel orderN orderV) models cfg reqs h →
        (∀ s cs n, Request.updateLMScores s cs n ∈ reqs → toInt32 s = 0) →
        ∃ m : Ppm.Model Arith.xr, h.models[j]? = some (.ppm m) ∧
          Ppm.Answers o encode m0.symbols m0.chars
            (M0.uses K m0.chars (Ppm.alphabet m0.symbols encode) (reqs.filterMap lesson)) m := by
  obtain ⟨bound, hb⟩ := served_live hs
  refine ⟨bound, fun fuel hfu orderN orderV hf cfg reqs h hw hr h0 => ?_⟩
  obtain ⟨hh, e1, e2⟩ := hr
  rw [initialize_eq hf] at e1
  split at e1
  · cases e1
  · simp only [Except.ok.injEq, Option.some.injEq] at e1
    subst e1
    obtain ⟨ctxs0, r0⟩ := ready_initial (orderN := orderN) (orderV := orderV) hl (hb fuel hfu) hj hw (cfgHlen (A := Arith.xr) cfg)
      (cfgMax_ge (A := Arith.xr) cfg)
    obtain ⟨ctxs, k2⟩ := r0.strings hf hl reqs h0 e2
    obtain ⟨m, k4, k5⟩ := k2.holds
    exact ⟨m, k4, k5.answers hl.alpha hl.beta hl.initial hl.totals⟩

/-- **C77** With the PPM model alone: after any history of requests there is such a memory, the scores after a text are
those of a known context that the text ends with, and teaching after a text is learning after such a context; the
reply to it, and the replies to asking for the scores along the text taught, are those of the longest contexts known
then (as long as no state takes its own place in the state buffer and there is room for the text). -/
theorem C77_server (hl : Learner o K M0 m0) (hms : models.head? = some (.ppm m0)) (hs : ∀ m ∈ models, Served encode m) :
    ∃ bound, ∀ fuel, bound ≤ fuel → ∀ orderN orderV, (env Arith.xr encode fuel orderN orderV).Fair →
      ∀ (cfg : HubConfig XR) reqs h, (cfg.mixture = .interpolation → cfg.weights.length < 2) → cfg.maxStates < 2 ^ 31 →
        Server.Reach (env Arith.xr encode fuel orderN orderV) models cfg reqs h →
        ∃ (h0 : Hub Arith.xr (Component Arith.xr)) (M : Memory),
          initializeModels (env Arith.xr encode fuel orderN orderV) models cfg = .ok (some h0) ∧
          Taught (env Arith.xr encode fuel orderN orderV) K (Ppm.alphabet m0.symbols encode) h0 M0 reqs h M ∧
          AsksWell (env Arith.xr encode fuel orderN orderV) o (Ppm.alphabet m0.symbols encode) m0.symbols m0.chars M h ∧
          TeachesWell (env Arith.xr encode fuel orderN orderV) o K (Ppm.alphabet m0.symbols encode) m0.symbols m0.chars M h := by
  obtain ⟨bound, hb⟩ := served_live hs
  refine ⟨bound, fun fuel hfu orderN orderV hf cfg reqs h hcfg hmx hr => ?_⟩
  have hw := weights_single hcfg
  obtain ⟨h0, M, ctxs, k1, k2, k3, k4, k5⟩ := ready_reach hf hl (hb fuel hfu) (j := 0) (by rw [← hms, List.head?_eq_getElem?]) (by omega) hr
  refine ⟨h0, M, k1, k2, k3.asks hf hl (by rw [k5]; omega), k3.teaches hf hl (by rw [k5]; omega) ?_⟩
  rw [k4]
  unfold cfgMax
  split <;> omega

end Mozolm.System
