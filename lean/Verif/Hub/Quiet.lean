import Verif.Hub.Trace

/-!
# Hub: the same text gets the same answer in any two histories
-/

namespace Mozolm.Hub
variable {A : Arith} {σ : Type} {env : Env A σ} {live : σ → Prop} {ok : σ → Int → Prop}
  {den : σ → Int → List Int → Prop} {ans : σ → List Int → Option (LMScores A.D)}
  {cost : σ → List Int → Int → A.C}

/-- The models of a reachable hub give the answers the models started with give. -/
theorem good_kept (ht : env.toLMOps.Traces live ok den ans cost) {models : List σ} (hlv : ∀ m ∈ models, live m)
    {ws : List A.C} {hlen max : Nat} {h : Hub A σ}
    (hg : Good (env.guard live ok) (initial (env.guard live ok) models ws hlen max) h) :
    h.models.map ans = models.map ans ∧ h.models.map cost = models.map cost := by
  have hm : TouchesU (env.guard live ok).toLMOps models h.models := hg.const.models
  have key : ∀ {l l' : List σ}, TouchesU (env.guard live ok).toLMOps l l' → (∀ m ∈ l, live m) →
      l'.map ans = l.map ans ∧ l'.map cost = l.map cost := by
    intro l l' h
    induction h with
    | nil => intro _; exact ⟨rfl, rfl⟩
    | cons h1 _ ih =>
      intro hl
      obtain ⟨i1, i2⟩ := ih fun m hm => hl m (by simp [hm])
      have k := (ht.touch h1 (hl _ (by simp))).2.2
      simp only [List.map_cons, i1, i2, k.answers, k.costs, and_self]
  exact key hm hlv

/-- Two histories of calls on hubs started alike: the same text, typed from the start, gets the same
answer, as long as no state took its own place. -/
theorem same_answer (hf : env.Fair) (ht : env.toLMOps.Traces live ok den ans cost) {models : List σ}
    (hlv : ∀ m ∈ models, live m) {cfg : HubConfig A.C} {calls1 calls2 : List Call} {h1 h2 h1' h2' : Hub A σ}
    (hr1 : Reach env models cfg calls1 h1) (hr2 : Reach env models cfg calls2 h2)
    {cs : List Int} (hcs : ∀ c ∈ cs, 0 ≤ c) {i1 i2 r1 r2 : Int} (hi1 : i1 ≤ 0) (hi2 : i2 ≤ 0)
    (he1 : contextState env h1 cs i1 = .ok (r1, h1')) (he2 : contextState env h2 cs i2 = .ok (r2, h2'))
    (hg1 : h1'.selfRecycled = false) (hg2 : h2'.selfRecycled = false) :
    (extractLMScores env h1' r1).map Prod.fst = (extractLMScores env h2' r2).map Prod.fst := by
  obtain ⟨o1, g1, k1, st1, rfl, hs1, hh1, hx1⟩ := context_holds hf ht hlv hr1 hcs hi1 he1 hg1
  obtain ⟨o2, g2, k2, st2, rfl, hs2, hh2, hx2⟩ := context_holds hf ht hlv hr2 hcs hi2 he2 hg2
  obtain ⟨a1, c1⟩ := good_kept ht hlv g1
  obtain ⟨a2, c2⟩ := good_kept ht hlv g2
  exact extract_holds ht hs1 hs2 o1.inv o2.inv (by rw [g1.const.weights, g2.const.weights])
    (by rw [g1.const.hlen, g2.const.hlen]) (by rw [a1, a2]) (by rw [c1, c2]) hh1 hh2 hx1 hx2

/-! ## Histories without effective updates -/

/-- The calls of a history with a count of at most zero update nothing; `Env.quiet` is the environment in
which all other updates do nothing either. -/
def Env.quiet (env : Env A σ) : Env A σ :=
  { env with update := fun m s cs n => if n ≤ 0 then env.update m s cs n else (true, m) }

/-- No update of the history has a positive count. -/
def Quiet (calls : List Call) : Prop := ∀ s cs n, Call.update s cs n ∈ calls → n ≤ 0

section
set_option smartUnfolding false

theorem quiet_next (h : Hub A σ) (s c : Int) : nextState env.quiet h s c = nextState env h s c := rfl
theorem quiet_context (h : Hub A σ) (cs : List Int) (s : Int) :
    contextState env.quiet h cs s = contextState env h cs s := rfl
theorem quiet_extract (h : Hub A σ) (s : Int) : extractLMScores env.quiet h s = extractLMScores env h s := rfl
theorem quiet_initialize (models : List σ) (cfg : HubConfig A.C) :
    initializeModels env.quiet models cfg = initializeModels env models cfg := rfl
theorem quiet_ensure (h : Hub A σ) (s : Int) (cs : List Int) : ensureStates env.quiet h s cs = ensureStates env h s cs := rfl
theorem quiet_history (h : Hub A σ) (s : Int) (cs : List Int) : historyLoop env.quiet h s cs = historyLoop env h s cs := rfl
theorem quiet_verify (h : Hub A σ) (s : Nat) (cs : List Int) : verifyLoop env.quiet h s cs = verifyLoop env h s cs := rfl

end

theorem quiet_updateLoop (st : HubState A.C) (cs : List Int) {n : Int} (hn : n ≤ 0) :
    ∀ (i : Nat) (ws : List A.C) (ms : List σ), updateLoop env.quiet st cs n i ws ms = updateLoop env st cs n i ws ms
  | _, [], _ => rfl
  | _, _ :: _, [] => rfl
  | i, w :: ws, m :: ms => by
    have e : env.quiet.update m (st.modelState i) cs n = env.update m (st.modelState i) cs n := by
      simp [Env.quiet, hn]
    simp only [updateLoop, e, quiet_updateLoop st cs hn (i + 1) ws ms]

theorem quiet_update (h : Hub A σ) (s : Int) (cs : List Int) {n : Int} (hn : n ≤ 0) :
    updateLMCounts env.quiet h s cs n = updateLMCounts env h s cs n := by
  simp only [updateLMCounts, quiet_ensure, quiet_history, quiet_verify, quiet_updateLoop _ _ hn]

theorem quiet_run {calls : List Call} (hq : Quiet calls) (h : Hub A σ) : run env.quiet h calls = run env h calls := by
  induction calls generalizing h with
  | nil => rfl
  | cons c cs ih =>
    have e : step env.quiet h c = step env h c := by
      cases c with
      | next s c => simp only [step, quiet_next]
      | context cs s => simp only [step, quiet_context]
      | extract s => simp only [step, quiet_extract]
      | update s cs n => simp only [step, quiet_update h s cs (hq s cs n (by simp))]
    simp only [run, e]
    cases step env h c with
    | error f => rfl
    | ok h' => exact ih (fun s cs n hm => hq s cs n (by simp [hm])) h'

theorem quiet_reach {models : List σ} {cfg : HubConfig A.C} {calls : List Call} {h : Hub A σ} (hq : Quiet calls)
    (hr : Reach env models cfg calls h) : Reach env.quiet models cfg calls h := by
  obtain ⟨h0, e1, e2⟩ := hr
  exact ⟨h0, by rw [quiet_initialize]; exact e1, by rw [quiet_run hq]; exact e2⟩

/-- In a short history no state takes its own place. -/
theorem few_context (hf : env.Fair) {models : List σ} {cfg : HubConfig A.C} {calls : List Call} {h h' : Hub A σ}
    (hr : Reach env models cfg calls h) {cs : List Int} {init r : Int}
    (hfew : 1 + (calls.map Call.symbols).sum + cs.length ≤ cfgMax cfg)
    (he : contextState env h cs init = .ok (r, h')) : h'.selfRecycled = false := by
  obtain ⟨h0, e1, e2⟩ := hr
  rw [initialize_eq hf] at e1
  split at e1
  · cases e1
  · simp only [Except.ok.injEq, Option.some.injEq] at e1
    subst e1
    have hi := initial_inv env models (cfgWeights cfg) (cfgHlen cfg) (cfgMax_ge cfg)
    have f1 := run_few hf hi (by show 1 + _ ≤ cfgMax cfg; omega) e2
    have g1 := run_good hf hi e2
    have hm : h.max = cfgMax cfg := g1.const.max
    have hl := f1.1
    have hl : h.states.length ≤ 1 + (calls.map Call.symbols).sum := hl
    have f2 := contextLoop_few hf g1.inv (by omega) he
    rw [f2.2, f1.2]
    rfl
end Mozolm.Hub
