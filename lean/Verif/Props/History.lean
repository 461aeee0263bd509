import Verif.System.Trace
import Verif.Server.Calls
import Verif.Props.SystemUpdate

/-!
# C73: without learning, earlier requests do not matter
-/

namespace Mozolm.System
variable {A : Arith} {encode : Int → Str} {fuel : Nat}

theorem fixed_next {m : Component A} (hf : Fixed m) (h : live encode fuel m) {s : Int} (hs : ok m s) (c : Int) :
    Fixed (next encode fuel m s c).2 := by
  cases m with
  | bigram m => exact hf
  | ppm m =>
    obtain ⟨Ok, ord, V, u, h⟩ := h
    obtain ⟨h0, h1⟩ := hs
    obtain ⟨s, rfl⟩ : ∃ n : Nat, s = n := ⟨_, toNat_eq h0⟩
    obtain ⟨t, _, ht, hq⟩ := Ppm.nextState_query (g := m.sig) h.laws h.wf h.labels encode c (s := s)
      (by simpa [Ppm.Model.sig] using h1)
    obtain ⟨m1, e1, e2, e3⟩ := hq m rfl h.cache
    simp only [System.next, e1, settle]
    exact e2.static.trans hf
  | char m => simp only [next, settle]; split <;> trivial
  | word m => simp only [next, settle]; split <;> trivial
  | overflow => trivial
  | crashed f => trivial

theorem fixed_extract {m : Component A} (hf : Fixed m) (h : live encode fuel m) {s : Int} (hs : ok m s) :
    Fixed (extract encode fuel m s).2 := by
  cases m with
  | bigram m => exact absurd hf id
  | ppm m =>
    obtain ⟨Ok, ord, V, u, h⟩ := h
    obtain ⟨h0, h1⟩ := hs
    obtain ⟨s, rfl⟩ : ∃ n : Nat, s = n := ⟨_, toNat_eq h0⟩
    have hs' : s < m.core.fst.states.length := by omega
    obtain ⟨d, hd, hsz⟩ := h.wf.ideal h.laws m.alpha s hs'
    obtain ⟨r, hr, _, hp, hsy⟩ := Ppm.fill_ok hsz m.symbols
    obtain ⟨m1, e1, e2, e3⟩ := Ppm.extract_query (g := m.sig) h.laws h.wf hs' hd hr m rfl h.cache
    simp only [System.extract, e1, settle]
    exact e2.static.trans hf
  | char m => simp only [extract, settle]; split <;> trivial
  | word m => simp only [extract, settle]; split <;> trivial
  | overflow => trivial
  | crashed f => trivial

theorem fixed_score {m : Component A} (hf : Fixed m) (h : live encode fuel m) {s : Int} (hs : ok m s) (c : Int) :
    Fixed (symScore encode fuel m s c).2 := by
  cases m with
  | bigram m => exact absurd hf id
  | ppm m =>
    obtain ⟨Ok, ord, V, u, h⟩ := h
    obtain ⟨h0, h1⟩ := hs
    obtain ⟨s, rfl⟩ : ∃ n : Nat, s = n := ⟨_, toNat_eq h0⟩
    have hs' : s < m.core.fst.states.length := by omega
    obtain ⟨d, hd, hsz⟩ := h.wf.ideal h.laws m.alpha s hs'
    obtain ⟨w, hw, _⟩ := Ppm.symLMScore_query (g := m.sig) h.laws h.wf h.labels encode c hs' hd
    obtain ⟨m1, e1, e2, e3⟩ := hw m rfl h.cache
    simp only [System.symScore, e1, settle]
    exact e2.static.trans hf
  | char m => simp only [symScore, settle]; split <;> trivial
  | word m => simp only [symScore, settle]; split <;> trivial
  | overflow => trivial
  | crashed f => trivial

/-- Components that do not learn answer by the text typed, whatever updates are made. -/
theorem traces_fixed (A : Arith) (encode : Int → Str) (fuel : Nat) :
    (ops A encode fuel).Traces (fun m => live encode fuel m ∧ Fixed m) ok (den encode fuel) (ans encode fuel)
      (cost encode fuel) where
  closed :=
    { start := fun m h => (closedOn A encode fuel).start m h.1
      next := fun m s c h hs => (closedOn A encode fuel).next m s c h.1 hs
      live_next := fun m s c h hs => ⟨(closedOn A encode fuel).live_next m s c h.1 hs, fixed_next h.2 h.1 hs c⟩
      live_extract := fun m s h hs => ⟨(closedOn A encode fuel).live_extract m s h.1 hs, fixed_extract h.2 h.1 hs⟩
      live_score := fun m s c h hs => ⟨(closedOn A encode fuel).live_score m s c h.1 hs, fixed_score h.2 h.1 hs c⟩
      live_update := fun m s cs n h hs => by
        show live encode fuel (update encode m s cs n).2 ∧ Fixed (update encode m s cs n).2
        rw [update_fixed h.2]; exact h
      keep_next := fun m s c x h => (closedOn A encode fuel).keep_next m s c x h.1
      keep_extract := fun m s x h => (closedOn A encode fuel).keep_extract m s x h.1
      keep_score := fun m s c x h => (closedOn A encode fuel).keep_score m s c x h.1
      keep_update := fun m s cs n x h => (closedOn A encode fuel).keep_update m s cs n x h.1 }
  start m h := trace_start m h.1
  next m s c p h := trace_next m s c p h.1
  extract m s p h := trace_extract m s p h.1
  score m s c p h hs hd _ := trace_score m s c p h.1 hs hd
  kept_next m s c h := trace_kept_next m s c h.1
  kept_extract m s h := trace_kept_extract m s h.1
  kept_score m s c h := trace_kept_score m s c h.1
  kept_update m s cs n h _ := by
    show Hub.Kept ok (den encode fuel) (ans encode fuel) (cost encode fuel) m (update encode m s cs n).2
    rw [update_fixed h.2]
    exact .refl m

theorem Fair.quiet {σ : Type} {env : Hub.Env A σ} (hf : env.Fair) : env.quiet.Fair := ⟨hf.permN, hf.permV⟩

/-- Nothing is learnt in the history: the components cannot learn, or no update has a positive count. -/
def NothingLearnt (models : List (Component A)) (reqs : List Server.Request) : Prop :=
  (∀ m ∈ models, Fixed m) ∨ ∀ s cs n, Server.Request.updateLMScores s cs n ∈ reqs → n ≤ 0

/-- **C73** (hub) In two histories of calls in which nothing is learnt, a text typed from the start gets the
same answer, as long as no state took its own place in the state buffer. -/
theorem C73_hub {models : List (Component A)} (hs : ∀ m ∈ models, Served encode m) :
    ∃ bound, ∀ fuel, bound ≤ fuel → ∀ orderN orderV, (env A encode fuel orderN orderV).Fair →
      ∀ cfg calls1 calls2 h1 h2, ((∀ m ∈ models, Fixed m) ∨ (Hub.Quiet calls1 ∧ Hub.Quiet calls2)) →
        Hub.Reach (env A encode fuel orderN orderV) models cfg calls1 h1 →
        Hub.Reach (env A encode fuel orderN orderV) models cfg calls2 h2 →
        ∀ text, (∀ c ∈ text, 0 ≤ c) → ∀ x1 x2, x1 ≤ 0 → x2 ≤ 0 → ∀ r1 r2 h1' h2',
        Hub.contextState (env A encode fuel orderN orderV) h1 text x1 = .ok (r1, h1') →
        Hub.contextState (env A encode fuel orderN orderV) h2 text x2 = .ok (r2, h2') →
        h1'.selfRecycled = false → h2'.selfRecycled = false →
        (Hub.extractLMScores (env A encode fuel orderN orderV) h1' r1).map Prod.fst =
          (Hub.extractLMScores (env A encode fuel orderN orderV) h2' r2).map Prod.fst := by
  obtain ⟨bound, hb⟩ := served_live hs
  refine ⟨bound, fun fuel hfu orderN orderV hf cfg calls1 calls2 h1 h2 hq hr1 hr2 text ht x1 x2 hx1 hx2 r1 r2 h1' h2'
    e1 e2 g1 g2 => ?_⟩
  rcases hq with hq | ⟨hq1, hq2⟩
  · exact Hub.same_answer hf (traces_fixed A encode fuel) (fun m hm => ⟨hb fuel hfu m hm, hq m hm⟩) hr1 hr2 ht hx1 hx2
      e1 e2 g1 g2
  · rw [← Hub.quiet_context] at e1 e2
    rw [← Hub.quiet_extract h1', ← Hub.quiet_extract h2']
    refine Hub.same_answer (Fair.quiet hf) (traces_of ?_) (hb fuel hfu) (Hub.quiet_reach hq1 hr1)
      (Hub.quiet_reach hq2 hr2) ht hx1 hx2 e1 e2 g1 g2
    intro m s cs n
    show (if n ≤ 0 then update encode m s cs n else (true, m)).2 = m
    split
    · next hn => exact update_quiet m s cs hn
    · rfl

/-- **C73** (service) Take two servers started alike and two histories of requests in which nothing is learnt,
neither so long that the state buffer fills up.  A text sent with a state id of at most zero gets the same
reply from both. -/
theorem C73_service {models : List (Component A)} (hs : ∀ m ∈ models, Served encode m) :
    ∃ bound, ∀ fuel, bound ≤ fuel → ∀ orderN orderV, (env A encode fuel orderN orderV).Fair →
      ∀ cfg reqs1 reqs2 h1 h2, NothingLearnt models reqs1 → NothingLearnt models reqs2 →
        Server.Reach (env A encode fuel orderN orderV) models cfg reqs1 h1 →
        Server.Reach (env A encode fuel orderN orderV) models cfg reqs2 h2 →
        ∀ text, (∀ c ∈ text, 0 ≤ c) → ∀ x1 x2, -2 ^ 31 ≤ x1 → x1 ≤ 0 → -2 ^ 31 ≤ x2 → x2 ≤ 0 →
        1 + (reqs1.map Server.Request.symbols).sum + text.length ≤ Hub.cfgMax cfg →
        1 + (reqs2.map Server.Request.symbols).sum + text.length ≤ Hub.cfgMax cfg →
        (Server.getLMScores (env A encode fuel orderN orderV) h1 text x1).map Prod.fst =
          (Server.getLMScores (env A encode fuel orderN orderV) h2 text x2).map Prod.fst := by
  obtain ⟨bound, hb⟩ := C73_hub hs
  refine ⟨bound, fun fuel hfu orderN orderV hf cfg reqs1 reqs2 h1 h2 hq1 hq2 hr1 hr2 text ht x1 x2 hl1 hx1 hl2 hx2
    hm1 hm2 => ?_⟩
  obtain ⟨calls1, hc1, u1, s1⟩ := hr1.hub'
  obtain ⟨calls2, hc2, u2, s2⟩ := hr2.hub'
  have hq : (∀ m ∈ models, Fixed m) ∨ (Hub.Quiet calls1 ∧ Hub.Quiet calls2) := by
    rcases hq1 with hq1 | hq1
    · exact .inl hq1
    · rcases hq2 with hq2 | hq2
      · exact .inl hq2
      · refine .inr ⟨fun s cs n h => ?_, fun s cs n h => ?_⟩
        · obtain ⟨s', h⟩ := u1 s cs n h; exact hq1 _ _ _ h
        · obtain ⟨s', h⟩ := u2 s cs n h; exact hq2 _ _ _ h
  have e32a : Server.toInt32 x1 = x1 := Server.toInt32_of_range (by omega) (by omega)
  have e32b : Server.toInt32 x2 = x2 := Server.toInt32_of_range (by omega) (by omega)
  obtain ⟨r1, h1', e1, -⟩ := Hub.contextLoop_ok hf (Hub.reach_good hf hc1).inv (if x1 < 0 then 0 else x1) text
  obtain ⟨r2, h2', e2, -⟩ := Hub.contextLoop_ok hf (Hub.reach_good hf hc2).inv (if x2 < 0 then 0 else x2) text
  have e1 : Hub.contextState (env A encode fuel orderN orderV) h1 text x1 = .ok (r1, h1') := e1
  have e2 : Hub.contextState (env A encode fuel orderN orderV) h2 text x2 = .ok (r2, h2') := e2
  have key := hb fuel hfu orderN orderV hf cfg calls1 calls2 h1 h2 hq hc1 hc2 text ht x1 x2 hx1 hx2 r1 r2 h1' h2' e1 e2
    (Hub.few_context hf hc1 (by omega) e1) (Hub.few_context hf hc2 (by omega) e2)
  simp only [Server.getLMScores, e32a, e32b, e1, e2, ok_bind]
  generalize Hub.extractLMScores (env A encode fuel orderN orderV) h1' r1 = a at key ⊢
  generalize Hub.extractLMScores (env A encode fuel orderN orderV) h2' r2 = b at key ⊢
  cases a with
  | error f =>
    cases b with
    | error g =>
      have : f = g := by simpa [Except.map] using key
      subst this
      rfl
    | ok b => cases key
  | ok a =>
    cases b with
    | error g => cases key
    | ok b =>
      obtain ⟨a1, a2⟩ := a
      obtain ⟨b1, b2⟩ := b
      have : a1 = b1 := by simpa [Except.map] using key
      subst this
      cases a1 <;> rfl

/-- **C73** In particular the reply is the one a freshly started server gives. -/
theorem C73_as_fresh {models : List (Component A)} (hs : ∀ m ∈ models, Served encode m) :
    ∃ bound, ∀ fuel, bound ≤ fuel → ∀ orderN orderV, (env A encode fuel orderN orderV).Fair →
      ∀ cfg reqs h0 h, NothingLearnt models reqs →
        Hub.initializeModels (env A encode fuel orderN orderV) models cfg = .ok (some h0) →
        Server.serveAll (env A encode fuel orderN orderV) h0 reqs = .ok h →
        ∀ text, (∀ c ∈ text, 0 ≤ c) → ∀ x, -2 ^ 31 ≤ x → x ≤ 0 →
        1 + (reqs.map Server.Request.symbols).sum + text.length ≤ Hub.cfgMax cfg →
        (Server.getLMScores (env A encode fuel orderN orderV) h text x).map Prod.fst =
          (Server.getLMScores (env A encode fuel orderN orderV) h0 text 0).map Prod.fst := by
  obtain ⟨bound, hb⟩ := C73_service hs
  refine ⟨bound, fun fuel hfu orderN orderV hf cfg reqs h0 h hq e0 e1 text ht x hl hx hm => ?_⟩
  exact hb fuel hfu orderN orderV hf cfg reqs [] h h0 hq (.inr fun _ _ _ h => by cases h) ⟨h0, e0, e1⟩ ⟨h0, e0, rfl⟩
    text ht x 0 hl hx (by decide) (Int.le_refl _) hm (by simp only [List.map_nil, List.sum_nil]; omega)

/-! ## Histories meeting the hypotheses -/

/-- C73: the n-gram models, which do not learn, behind a server with Bayesian history; a history with an update,
after which another text is asked about. -/
example : ∃ (models : List (Component Arith.xr)) (fuel : Nat) (cfg : Hub.HubConfig XR)
    (h h' : Hub.Hub Arith.xr (Component Arith.xr)) (rep : Server.Reply (LMScores XR)),
    models.length = 2 ∧ (∀ m ∈ models, Served demoEncode m) ∧ (∀ m ∈ models, Fixed m) ∧
    0 < cfg.bayesianHistoryLength ∧
    Server.Reach (env Arith.xr demoEncode fuel id id) models cfg [.updateLMScores 0 [97, 98] 3] h ∧
    1 + ([Server.Request.updateLMScores 0 [97, 98] 3].map Server.Request.symbols).sum + [98, 97].length ≤
      Hub.cfgMax (A := Arith.xr) cfg ∧
    Server.getLMScores (env Arith.xr demoEncode fuel id id) h [98, 97] (-1) = .ok (rep, h') := by
  obtain ⟨models, hl, hs, hk, b, p, c, w, rfl⟩ := demo_served
  have hs' : ∀ m ∈ [Component.char c, .word w], Served demoEncode m := fun m hm => hs m (by simp_all)
  obtain ⟨b1, hb1⟩ := C72_service hs' (by simp)
  obtain ⟨b2, hb2⟩ := C72_update_service hs' (by simp)
  have hf : (env Arith.xr demoEncode (max b1 b2) id id).Fair := ⟨fun _ => .refl _, fun _ => .refl _⟩
  let cfg : Hub.HubConfig XR :=
    { mixture := .interpolation, weights := [.fin 0, .fin 0], bayesianHistoryLength := 2, maxStates := 20 }
  have hcfg : cfg.mixture = .interpolation → cfg.weights.length ≤ [Component.char c, .word w].length := fun _ => Nat.le_refl 2
  obtain ⟨h0, hr0⟩ : ∃ h0, Hub.initializeModels (env Arith.xr demoEncode (max b1 b2) id id) [.char c, .word w] cfg = .ok (some h0) :=
    ⟨_, by rw [Hub.initialize_eq hf, if_neg (by decide)]⟩
  have hpos := (Hub.reach_good hf (h := h0) (calls := []) ⟨h0, hr0, rfl⟩).inv.pos
  obtain ⟨rep, h1, e1, _⟩ := hb2 _ (by omega) _ _ hf cfg [] h0 hcfg ⟨h0, hr0, rfl⟩ 0 (by decide) (by decide) (by omega)
    [97, 98] (by decide) 3
  have hr1 : Server.Reach (env Arith.xr demoEncode (max b1 b2) id id) [.char c, .word w] cfg [.updateLMScores 0 [97, 98] 3] h1 :=
    ⟨h0, hr0, by simp only [Server.serveAll, Server.serve, e1, ok_bind]⟩
  obtain ⟨rep2, h2, e2, _⟩ := (hb1 _ (by omega) _ _ hf cfg _ h1 hcfg hr1).2 [98, 97] (-1)
  refine ⟨_, _, cfg, h1, h2, rep2, rfl, hs', fun m hm => ?_, by decide, hr1, by decide, e2⟩
  simp only [List.mem_cons, List.not_mem_nil, or_false] at hm
  rcases hm with rfl | rfl <;> trivial

/-- C73: components of all kinds; a history of requests without learning. -/
example : ∃ (models : List (Component Arith.xr)) (fuel : Nat) (cfg : Hub.HubConfig XR)
    (h h' : Hub.Hub Arith.xr (Component Arith.xr)) (rep : Server.Reply (LMScores XR)),
    models.length = 4 ∧ (∀ m ∈ models, Served demoEncode m) ∧ 0 < cfg.bayesianHistoryLength ∧
    Server.Reach (env Arith.xr demoEncode fuel id id) models cfg [.updateLMScores 0 [97, 98] 0, .getLMScores [99] 1] h ∧
    NothingLearnt models [.updateLMScores 0 [97, 98] 0, .getLMScores [99] 1] ∧
    Server.getLMScores (env Arith.xr demoEncode fuel id id) h [98, 97] (-1) = .ok (rep, h') := by
  obtain ⟨models, hl, hs, hk, _⟩ := demo_served
  obtain ⟨b1, hb1⟩ := C72_service hs (by omega)
  obtain ⟨b2, hb2⟩ := C72_update_service hs (by omega)
  have hf : (env Arith.xr demoEncode (max b1 b2) id id).Fair := ⟨fun _ => .refl _, fun _ => .refl _⟩
  let cfg : Hub.HubConfig XR :=
    { mixture := .interpolation, weights := [.fin 0, .fin 0, .fin 0, .fin 0], bayesianHistoryLength := 2, maxStates := 20 }
  have hcfg : cfg.mixture = .interpolation → cfg.weights.length ≤ models.length := fun _ => by rw [hl]; decide
  obtain ⟨h0, hr0⟩ : ∃ h0, Hub.initializeModels (env Arith.xr demoEncode (max b1 b2) id id) models cfg = .ok (some h0) :=
    ⟨_, by rw [Hub.initialize_eq hf, if_neg (by decide)]⟩
  have hpos := (Hub.reach_good hf (h := h0) (calls := []) ⟨h0, hr0, rfl⟩).inv.pos
  obtain ⟨rep, h1, e1, _⟩ := hb2 _ (by omega) _ _ hf cfg [] h0 hcfg ⟨h0, hr0, rfl⟩ 0 (by decide) (by decide) (by omega)
    [97, 98] (by decide) 0
  have hr1 : Server.Reach (env Arith.xr demoEncode (max b1 b2) id id) models cfg [.updateLMScores 0 [97, 98] 0] h1 :=
    ⟨h0, hr0, by simp only [Server.serveAll, Server.serve, e1, ok_bind]⟩
  obtain ⟨rep2, h2, e2, _⟩ := (hb1 _ (by omega) _ _ hf cfg _ h1 hcfg hr1).2 [99] 1
  have hr2 : Server.Reach (env Arith.xr demoEncode (max b1 b2) id id) models cfg [.updateLMScores 0 [97, 98] 0, .getLMScores [99] 1] h2 :=
    ⟨h0, hr0, by simp only [Server.serveAll, Server.serve, e1, e2, ok_bind]⟩
  obtain ⟨rep3, h3, e3, _⟩ := (hb1 _ (by omega) _ _ hf cfg _ h2 hcfg hr2).2 [98, 97] (-1)
  refine ⟨_, _, cfg, h2, h3, rep3, hl, hs, by decide, hr2, .inr fun s cs n h => ?_, e3⟩
  simp only [List.mem_cons, Server.Request.updateLMScores.injEq, reduceCtorEq, List.not_mem_nil, or_false] at h
  omega

end Mozolm.System
