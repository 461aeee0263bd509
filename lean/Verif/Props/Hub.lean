import Verif.Hub.Few
import Verif.Hub.Demo

/-!
# Property theorems about the model hub (C01–C08, C13, C14 at hub level)

All theorems quantify over the component models (`σ`, `env`), the configuration, and the history of
API calls (`Reach`).  `env.Fair` says only that iterating a hash map visits exactly its entries.
-/

namespace Mozolm.Hub
variable {A : Arith} {σ : Type} {env : Env A σ} {models : List σ} {cfg : HubConfig A.C}
  {calls : List Call} {h h' : Hub A σ}

/-- C01: the table never exceeds the configured maximum (10000 when that is below 10). -/
theorem C01_table_bounded (hf : env.Fair) (hr : Reach env models cfg calls h) :
    (h.states.length : Int) ≤ if cfg.maxStates < 10 then 10000 else cfg.maxStates := by
  have g := reach_good hf hr
  have h1 := g.inv.le
  have h2 := g.const.max
  have h3 : (initial env models (cfgWeights cfg) (cfgHlen cfg) (cfgMax cfg)).max = cfgMax cfg := rfl
  rw [h2, h3] at h1
  unfold cfgMax at h1
  split <;> rename_i hc
  · rw [if_pos hc] at h1; omega
  · rw [if_neg hc] at h1; omega

/-- C01: `NextState` never fails, and returns an existing state, or -1 exactly for a negative
symbol. -/
theorem C01_next_valid (hf : env.Fair) (hr : Reach env models cfg calls h) (s c : Int) :
    ∃ r h', nextState env h s c = .ok (r, h') ∧ (c < 0 → r = -1) ∧
      (0 ≤ c → h'.valid r = true) := by
  have g := reach_good hf hr
  obtain ⟨r, h', e, o⟩ := nextState_out hf g.inv s c
  refine ⟨r, h', e, ?_, ?_⟩
  · intro hc
    cases o with
    | bad => rfl
    | cached hc' => omega
    | new hc' => omega
  · intro hc
    obtain ⟨k, rfl, _, hk, _⟩ := o.range hf g.inv hc
    simp only [Hub.valid, Bool.and_eq_true, decide_eq_true_eq]; omega

/-- C01: `ContextState` never fails, and with a non-empty context returns an existing state. -/
theorem C01_context_valid (hf : env.Fair) (hr : Reach env models cfg calls h) (cs : List Int)
    (s : Int) : ∃ r h', contextState env h cs s = .ok (r, h') ∧ (cs ≠ [] → h'.valid r = true) := by
  have g := reach_good hf hr
  obtain ⟨r, h', e, _, h1, _⟩ := contextLoop_ok hf g.inv (if s < 0 then 0 else s) cs
  refine ⟨r, h', e, fun hne => ?_⟩
  have := h1 hne
  simp only [Hub.valid, Bool.and_eq_true, decide_eq_true_eq]; exact this

/-- C01: no call runs into undefined behaviour, provided there is a component per mixture weight,
components return as many symbols as probabilities, and – only when Bayesian history is on –
`UpdateLMCounts` is given an existing state and non-negative symbols. -/
theorem C01_no_fault (hf : env.Fair) (hsc : env.ScoresOK) (hm : 0 < models.length)
    (hcfg : cfg.mixture = .interpolation → cfg.weights.length ≤ models.length)
    (hr : Reach env models cfg calls h) (call : Call)
    (hsafe : ∀ s cs n, call = .update s cs n →
      cfg.bayesianHistoryLength ≤ 0 ∨ (h.valid s = true ∧ ∀ c ∈ cs, 0 ≤ c)) :
    ∃ h', step env h call = .ok h' := by
  have g := reach_good hf hr
  have hml : h.models.length = models.length := g.const.models.length_eq.symm
  have hw : h.weights.length ≤ h.models.length := by
    rw [g.const.weights, hml]
    show (cfgWeights cfg).length ≤ _
    unfold cfgWeights
    split
    · next hx => rw [normalizeWeights_length]; exact hcfg hx.1
    · simp only [List.length_singleton]; omega
  cases call with
  | next s c =>
    obtain ⟨r, h', e, _⟩ := nextState_out hf g.inv s c
    exact ⟨h', by simp [step, e]⟩
  | context cs s =>
    obtain ⟨r, h', e, _⟩ := contextLoop_ok hf g.inv (if s < 0 then 0 else s) cs
    exact ⟨h', by simp [step, contextState, e]⟩
  | extract s =>
    obtain ⟨r, h', e⟩ := extract_ok hsc g.inv hw (by omega) s
    exact ⟨h', by simp [step, e]⟩
  | update s cs n =>
    have hx : h.hlen = 0 ∨ cs = [] ∨ (h.valid s = true ∧ ∀ c ∈ cs, 0 ≤ c) := by
      rcases hsafe s cs n rfl with h0 | h0
      · left
        rw [g.const.hlen]
        show cfgHlen cfg = 0
        unfold cfgHlen; split <;> omega
      · exact .inr (.inr h0)
    obtain ⟨r, h', e⟩ := update_ok hf g.inv hw (n := n) hx
    exact ⟨h', by simp [step, e]⟩

/-- C02: the state reached by a non-negative symbol reports that symbol. -/
theorem C02_state_sym (hf : env.Fair) (hr : Reach env models cfg calls h) {s c r : Int} (hc : 0 ≤ c)
    (he : nextState env h s c = .ok (r, h')) : stateSym h' r = c := by
  have g := reach_good hf hr
  obtain ⟨_, o⟩ := nextState_good hf g.inv he
  obtain ⟨k, rfl, _, _, ⟨kst, h1, h2⟩, _⟩ := o.range hf g.inv hc
  simp only [stateSym]
  rw [if_neg (by omega)]
  simp only [Int.toNat_natCast, h1, h2]

/-- C03: repeating `NextState` at once returns the same id and changes nothing, for an existing state
(or a negative id, which stands for the start state). -/
theorem C03_next_stable (hf : env.Fair) (hr : Reach env models cfg calls h) {s c r : Int}
    (hs : s < 0 ∨ h.valid s = true) (he : nextState env h s c = .ok (r, h')) :
    nextState env h' s c = .ok (r, h') := by
  have g := reach_good hf hr
  obtain ⟨g', o⟩ := nextState_good hf g.inv he
  by_cases hc : c < 0
  · cases o with
    | bad => exact he
    | cached hc' => omega
    | new hc' => omega
  · have hsrc : source h' s = source h s := by
      have := g'.const.len
      unfold source Hub.valid
      rcases hs with hs | hs
      · have : ¬ (0 ≤ s) := by omega
        simp [this]
      · simp only [Hub.valid, Bool.and_eq_true, decide_eq_true_eq] at hs
        have h1 : s < (h'.states.length : Int) := by omega
        simp [hs.1, hs.2, h1]
    obtain ⟨k, rfl, _, _, _, sst, s1, s2⟩ := o.range hf g.inv (by omega)
    have s1' : h'.states[if h'.valid s then s.toNat else 0]? = some sst := by
      rw [← hsrc] at s1; exact s1
    simp only [nextState, s1', HubState.nextState, s2]
    rw [if_pos (Or.inr (by omega))]

/-- C03 fails for the id just past the table: the first call creates the state with that id, so the
second call starts from it. -/
theorem C03_false : ∃ (h h1 h2 : Hub Arith.unit Unit) (r1 r2 : Int),
    Reach Demo.counter [()] Demo.cfg10 [] h ∧
    nextState Demo.counter h 1 97 = .ok (r1, h1) ∧ nextState Demo.counter h1 1 97 = .ok (r2, h2) ∧
    r1 = 1 ∧ r2 = 2 :=
  ⟨_, _, _, _, _, ⟨_, rfl, rfl⟩, rfl, rfl, rfl, rfl⟩

/-- C04: with static components, in any history in which no state was recycled while being extended,
`NextState` from an existing state `s` reaches – from the cache or afresh – a state whose component
states are the components' successors of those of `s`. -/
theorem C04_next_denotes {view : σ → Int → Int → Int} {cost : σ → Int → Int → A.C} (hf : env.Fair)
    (hs : env.toLMOps.Static view cost) (hr : Reach env models cfg calls h) {s c r : Int}
    (hv : h.valid s = true) (hc : 0 ≤ c) (he : nextState env h s c = .ok (r, h'))
    (hg : h'.selfRecycled = false) :
    ∃ st rst, h.states[s.toNat]? = some st ∧ h'.states[r.toNat]? = some rst ∧
      rst.modelStates = List.zipWith (fun m x => view m x c) models st.modelStates := by
  have g := reach_good hf hr
  have hd := g.pres _ _ (denotes_preserved hf hs) (initial_denotes models _ _ _)
  obtain ⟨_, o⟩ := nextState_good hf g.inv he
  simp only [Hub.valid, Bool.and_eq_true, decide_eq_true_eq] at hv
  have hlt : s.toNat < h.states.length := by omega
  obtain ⟨st, hst⟩ := exists_getElem?_of_lt hlt
  have hsrc : source h s = s.toNat := by
    have := source_valid (h := h) hv.1 hv.2; omega
  obtain ⟨k, rst, rfl, k1, k2, _⟩ := o.denotes hf hs g.inv hd hc hg (by rw [hsrc]; exact hst)
  refine ⟨st, rst, hst, k1, ?_⟩
  rw [k2, ← hs.views g.const.models]
  simp only [stepAll, initial, List.zipWith_map_left]

/-- C04: with static components, in any history in which no state was recycled while being extended,
the state `ContextState` returns for a context has, for each component, exactly the state that
component reaches from its own start state by the same symbols. -/
theorem C04_context_denotes {view : σ → Int → Int → Int} {cost : σ → Int → Int → A.C}
    (hf : env.Fair) (hs : env.toLMOps.Static view cost) (hr : Reach env models cfg calls h)
    {cs : List Int} (hcs : ∀ c ∈ cs, 0 ≤ c) {r : Int} (he : contextState env h cs (-1) = .ok (r, h'))
    (hg : h'.selfRecycled = false) :
    ∃ rst, 0 ≤ r ∧ h'.states[r.toNat]? = some rst ∧ ∀ (j : Nat) (m : σ), models[j]? = some m →
      rst.modelStates[j]? = some (pathState (view m) (env.start m) cs) := by
  have g := reach_good hf hr
  have hd := g.pres _ _ (denotes_preserved hf hs) (initial_denotes models _ _ _)
  obtain ⟨st0, a1, a2, _⟩ := hd.start
  have hat : At view cost env.start models h.hlen [] st0 := by
    intro j m hm
    refine ⟨?_, fun hp => ?_⟩
    · rw [a2, ← hs.start.touches g.const.models]
      simp [initial, hm, pathState]
    · rw [(hd.startHist hp st0 a1).1, (hd.startHist hp st0 a1).2]
      have hj : j < h.models.length := by
        rw [← g.const.models.length_eq]; exact lt_of_getElem?_eq_some hm
      simp only [initHist, if_pos hp, pathCosts, List.append_nil]
      rw [List.getElem?_replicate, if_pos hj, List.getElem?_replicate, if_pos hj]
      simp [lastN]
  have := contextLoop_denotes hf hs (s := 0) g.inv hd
    (hs.views g.const.models).symm (hs.costs g.const.models).symm rfl a1 hat hcs he hg
  obtain ⟨k, rst, rfl, k1, k2⟩ := this
  exact ⟨rst, by omega, k1, fun j m hm => by simpa using (k2 j m hm).1⟩

/-- C13: with static components, in any history in which no state was recycled while being extended,
the state `ContextState` returns stores for each component exactly the costs of the last `j` symbols
of the context (zeros before the beginning), most recent last, and their sum. -/
theorem C13_history_is_last_costs {view : σ → Int → Int → Int} {cost : σ → Int → Int → A.C}
    (hf : env.Fair) (hs : env.toLMOps.Static view cost) (hr : Reach env models cfg calls h)
    (hmix : cfg.mixture = .interpolation) (hw : 2 ≤ cfg.weights.length)
    (hj : 0 < cfg.bayesianHistoryLength)
    {cs : List Int} (hcs : ∀ c ∈ cs, 0 ≤ c) {r : Int} (he : contextState env h cs (-1) = .ok (r, h'))
    (hg : h'.selfRecycled = false) :
    ∃ rst, 0 ≤ r ∧ h'.states[r.toNat]? = some rst ∧ ∀ (k : Nat) (m : σ), models[k]? = some m →
      rst.hist[k]? = some (lastN cfg.bayesianHistoryLength.toNat
        (List.replicate cfg.bayesianHistoryLength.toNat A.one ++
          pathCosts (view m) (cost m) (env.start m) cs)) ∧
      (cs ≠ [] → rst.histSum[k]? = (rst.hist[k]?).map (rowSum A)) ∧
      (cs = [] → rst.histSum[k]? = some A.one) := by
  have g := reach_good hf hr
  have hd := g.pres _ _ (denotes_preserved hf hs) (initial_denotes models _ _ _)
  obtain ⟨st0, a1, a2, _⟩ := hd.start
  have hl : h.hlen = cfg.bayesianHistoryLength.toNat := by
    rw [g.const.hlen]
    show cfgHlen cfg = _
    unfold cfgHlen
    rw [if_pos ⟨hmix, hw⟩]
  have hp : 0 < h.hlen := by omega
  have hat : At view cost env.start models h.hlen [] st0 := by
    intro j m hm
    refine ⟨?_, fun hp => ?_⟩
    · rw [a2, ← hs.start.touches g.const.models]
      simp [initial, hm, pathState]
    · rw [(hd.startHist hp st0 a1).1, (hd.startHist hp st0 a1).2]
      have hj : j < h.models.length := by
        rw [← g.const.models.length_eq]; exact lt_of_getElem?_eq_some hm
      simp only [initHist, if_pos hp, pathCosts, List.append_nil]
      rw [List.getElem?_replicate, if_pos hj, List.getElem?_replicate, if_pos hj]
      simp [lastN]
  have := contextLoop_denotes hf hs (s := 0) g.inv hd
    (hs.views g.const.models).symm (hs.costs g.const.models).symm rfl a1 hat hcs he hg
  obtain ⟨k, rst, rfl, k1, k2⟩ := this
  refine ⟨rst, by omega, k1, fun j m hm => ?_⟩
  have := (k2 j m hm).2 hp
  rw [hl, List.nil_append] at this
  refine ⟨this.1, fun hne => ?_, fun he => ?_⟩
  · rw [this.2, this.1, if_neg hne]; rfl
  · rw [this.2, if_pos he]

/-- C05, every history: an answer taken from the cache is an existing state other than the start state,
its symbol is the one asked, and its recorded predecessor is the source or none – never another state. -/
theorem C05_cached_transition (hf : env.Fair) (hr : Reach env models cfg calls h) {s c : Int} {k : Nat}
    {st : HubState A.C} (hs : 0 ≤ s) (hst : h.states[s.toNat]? = some st)
    (hk : HubState.lookup st.nexts c = some k) :
    k ≠ 0 ∧ nextState env h s c = .ok ((k : Int), h) ∧ stateSym h k = c ∧
      ∃ kst, h.states[k]? = some kst ∧ (kst.prev = s ∨ kst.prev = -1) := by
  have g := reach_good hf hr
  have hL := g.pres _ _ (weaklyLinked_preserved hf) (by
    intro i st hst c k hck
    cases i with
    | zero =>
      simp only [initial, List.getElem?_cons_zero, Option.some.injEq] at hst
      subst hst; simp [HubState.mk'] at hck
    | succ i => simp [initial] at hst)
  obtain ⟨kst, h2, h3⟩ := hL _ st hst c k (lookup_mem hk)
  obtain ⟨_, hk0, _, kst', e1, e2⟩ := (g.inv.st _ st hst).edges c k (lookup_mem hk)
  rw [h2] at e1; cases e1
  refine ⟨by omega, ?_, ?_, kst, h2, by omega⟩
  · have := nextState_cached (env := env) hst hk
    rwa [show ((s.toNat : Nat) : Int) = s by omega] at this
  · simp only [stateSym]
    rw [if_neg (by omega)]
    simp only [Int.toNat_natCast, h2, e2]

/-- C05: in a history in which no state was recycled while being extended, a cached transition
leads to another state whose recorded predecessor is the source and whose symbol is the one asked. -/
theorem C05_cached_transition_linked (hf : env.Fair) (hr : Reach env models cfg calls h)
    (hg : h.selfRecycled = false) {s c : Int} {k : Nat} {st : HubState A.C} (hs : 0 ≤ s)
    (hst : h.states[s.toNat]? = some st) (hk : HubState.lookup st.nexts c = some k) :
    (k : Int) ≠ s ∧ ∃ kst, h.states[k]? = some kst ∧ kst.prev = s ∧ kst.sym = c := by
  have g := reach_good hf hr
  have hL := g.pres _ _ (linked_preserved hf) (by
    intro _ i st hst c k hck
    cases i with
    | zero =>
      simp only [initial, List.getElem?_cons_zero, Option.some.injEq] at hst
      subst hst; simp [HubState.mk'] at hck
    | succ i => simp [initial] at hst)
  obtain ⟨h1, kst, h2, h3⟩ := hL hg _ st hst c k (lookup_mem hk)
  obtain ⟨_, _, _, kst', e1, e2⟩ := (g.inv.st _ st hst).edges c k (lookup_mem hk)
  rw [h2] at e1; cases e1
  exact ⟨by omega, kst, h2, by omega, e2⟩

/-- The hypothesis "no state was recycled while being extended" of C04, C05, C10 and C13 holds for every
history whose calls carry fewer symbols (twice counted for updates) than the table has places. -/
theorem C05_room_suffices (hf : env.Fair) (hr : Reach env models cfg calls h)
    (hfew : 1 + ((calls.map Call.symbols).sum : Int) ≤
      if cfg.maxStates < 10 then 10000 else cfg.maxStates) :
    h.selfRecycled = false ∧ h.states.length ≤ 1 + (calls.map Call.symbols).sum := by
  obtain ⟨h0, e0, e1⟩ := hr
  rw [initialize_eq hf] at e0
  split at e0
  · cases e0
  · cases e0
    have hm : (initial env models (cfgWeights cfg) (cfgHlen cfg) (cfgMax cfg)).states.length +
        (calls.map Call.symbols).sum ≤
        (initial env models (cfgWeights cfg) (cfgHlen cfg) (cfgMax cfg)).max := by
      show 1 + _ ≤ cfgMax cfg
      unfold cfgMax
      split at hfew
      · next hc => rw [if_pos hc]; omega
      · next hc => rw [if_neg hc]; omega
    have hmax : 10 ≤ cfgMax cfg := by unfold cfgMax; split <;> omega
    have f := run_few hf (initial_inv env models _ _ hmax) hm e1
    exact ⟨f.2, f.1⟩

/-- C05 does not hold when the state being extended is the one recycled: with a table of ten states
full, extending state 1 makes state 1 its own successor, so the next `NextState` on it returns the
state itself although the component would have moved on. -/
theorem C05_false : ∃ (h h1 h2 : Hub Arith.unit Unit) (calls : List Call),
    Reach Demo.counter [()] Demo.cfg10 calls h ∧ h.states.length = 10 ∧
    nextState Demo.counter h 1 5 = .ok (1, h1) ∧ nextState Demo.counter h1 1 5 = .ok (1, h2) ∧
    (h2.states[1]?).map HubState.modelStates = some [2] :=
  ⟨_, _, _, [.context [1, 1, 1, 1, 1, 1, 1, 1, 1] (-1)], ⟨_, rfl, rfl⟩, rfl, rfl, rfl, rfl⟩

/-- C06: state 0 always holds the components' start states, and `NextState` never returns it for a
non-negative symbol. -/
theorem C06_start_permanent (hf : env.Fair) (hss : env.toLMOps.StartStable)
    (hr : Reach env models cfg calls h) :
    (∃ st, h.states[0]? = some st ∧ st.modelStates = models.map env.start) ∧
    ∀ s c r h', 0 ≤ c → nextState env h s c = .ok (r, h') → r ≠ 0 := by
  have g := reach_good hf hr
  refine ⟨?_, ?_⟩
  · obtain ⟨st, e1, e2, _⟩ := g.pres _ _ (start_preserved hf hss) ⟨_, rfl, rfl, rfl, rfl⟩
    exact ⟨st, e1, by rw [e2, ← hss.touches g.const.models]; rfl⟩
  · intro s c r h' hc he
    obtain ⟨_, o⟩ := nextState_good hf g.inv he
    obtain ⟨k, rfl, hk, _⟩ := o.range hf g.inv hc
    omega

theorem contextLoop_append (as bs : List Int) (h : Hub A σ) (s : Int) :
    contextLoop env h s (as ++ bs) =
      (contextLoop env h s as >>= fun r => contextLoop env r.2 r.1 bs) := by
  induction as generalizing h s with
  | nil => rfl
  | cons a as ih =>
    simp only [List.cons_append, contextLoop]
    cases hn : nextState env h s a with
    | error e => rfl
    | ok r => simp only [ok_bind]; exact ih _ _

/-- C07: consuming `a` and then `b` from the state reached is consuming `a ++ b`: same result, same
effect on the hub. -/
theorem C07_context_compose (hf : env.Fair) (hr : Reach env models cfg calls h) (a b : List Int)
    (s : Int) {r : Int} (he : contextState env h a s = .ok (r, h')) :
    contextState env h' b r = contextState env h (a ++ b) s := by
  have g := reach_good hf hr
  unfold contextState at *
  rw [contextLoop_append, he]
  simp only [ok_bind]
  obtain ⟨r', h'', e, _, h1, h2⟩ := contextLoop_ok hf g.inv (if s < 0 then 0 else s) a
  rw [he] at e; cases e
  have : ¬ r < 0 := by
    by_cases ha : a = []
    · have := h2 ha
      split at this <;> omega
    · have := h1 ha; omega
  rw [if_neg this]

/-- C07: the empty context returns the given state, the start state for a negative id. -/
theorem C07_context_empty (h : Hub A σ) (s : Int) :
    contextState env h [] s = .ok (if s < 0 then 0 else s, h) := rfl

/-- C08: extracting scores at an id that is not an existing state returns false, writes no response
and changes nothing. -/
theorem C08_extract_invalid (h : Hub A σ) {s : Int} (hs : h.valid s = false) :
    extractLMScores env h s = .ok (none, h) := by
  simp [extractLMScores, hs]

/-- C08: updating counts at an id that is not an existing state returns false and changes no
component observation that queries leave alone (its counts). -/
theorem C08_update_invalid (hf : env.Fair) (hr : Reach env models cfg calls h) {γ : Type}
    {obs : σ → γ} (hq : env.toLMOps.QueryInvariant obs) {s : Int} (hs : h.valid s = false)
    {cs : List Int} {n : Int} {r : Bool} (he : updateLMCounts env h s cs n = .ok (r, h')) :
    r = false ∧ h'.models.map obs = h.models.map obs := by
  have g := reach_good hf hr
  obtain ⟨h2, _, ht, ⟨_, h4, h5⟩ | ⟨h3, _⟩⟩ := update_parts hf g.inv he
  · subst h5; exact ⟨h4, (hq.touches ht).symm⟩
  · rw [hs] at h3; cases h3

/-- C08, the call always returns when no Bayesian history is configured. -/
theorem C08_update_invalid_returns (hf : env.Fair) (hr : Reach env models cfg calls h)
    (hb : cfg.bayesianHistoryLength ≤ 0) {s : Int} (hs : h.valid s = false)
    (cs : List Int) (n : Int) : ∃ h', updateLMCounts env h s cs n = .ok (false, h') := by
  have g := reach_good hf hr
  have hl : h.hlen = 0 := by
    rw [g.const.hlen]
    show cfgHlen cfg = 0
    unfold cfgHlen; split <;> omega
  obtain ⟨h1, e1, g1⟩ := ensureStates_ok hf g.inv s cs
  have : ¬ 0 < h1.hlen := by rw [g1.const.hlen]; omega
  refine ⟨h1, ?_⟩
  simp [updateLMCounts, e1, this, hs]

/-- C08, the call also returns when there is no symbol, whatever the configuration. -/
theorem C08_update_invalid_empty {s : Int} (hs : h.valid s = false) (n : Int) :
    updateLMCounts env h s [] n = .ok (false, h) := by
  simp only [updateLMCounts, ensureStates, historyLoop, ok_bind, hs, ite_self]
  rfl

/-- C08 fails when Bayesian history is on: any update with a negative id and at least one symbol
indexes the state table out of bounds. -/
theorem C08_update_invalid_false (hf : env.Fair) (hr : Reach env models cfg calls h)
    (hmix : cfg.mixture = .interpolation) (hw : 2 ≤ cfg.weights.length)
    (hb : 0 < cfg.bayesianHistoryLength) {s : Int} (hs : s < 0) (c : Int) (cs : List Int) (n : Int) :
    updateLMCounts env h s (c :: cs) n = .error .ub := by
  have g := reach_good hf hr
  have hl : 0 < h.hlen := by
    rw [g.const.hlen]
    show 0 < cfgHlen cfg
    unfold cfgHlen
    rw [if_pos ⟨hmix, hw⟩]
    omega
  obtain ⟨h1, e1, g1⟩ := ensureStates_ok hf g.inv s (c :: cs)
  have h1l : 0 < h1.hlen := by rw [g1.const.hlen]; exact hl
  simp only [updateLMCounts, e1, ok_bind, if_pos h1l, historyLoop, if_pos hs, error_bind]

/-- C08 fails when Bayesian history is on also for an id so large that the states created for the
symbols do not reach it. -/
theorem C08_update_beyond_false (hf : env.Fair) (hr : Reach env models cfg calls h)
    (hmix : cfg.mixture = .interpolation) (hw : 2 ≤ cfg.weights.length)
    (hb : 0 < cfg.bayesianHistoryLength) {s : Int} (c : Int) (cs : List Int) (n : Int)
    (hs : (if cfg.maxStates < 10 then 10000 else cfg.maxStates) ≤ s) :
    updateLMCounts env h s (c :: cs) n = .error .ub := by
  have g := reach_good hf hr
  have hl : 0 < h.hlen := by
    rw [g.const.hlen]
    show 0 < cfgHlen cfg
    unfold cfgHlen
    rw [if_pos ⟨hmix, hw⟩]
    omega
  obtain ⟨h1, e1, g1⟩ := ensureStates_ok hf g.inv s (c :: cs)
  have h1l : 0 < h1.hlen := by rw [g1.const.hlen]; exact hl
  have hle := g1.inv.le
  have hmx : h1.max = cfgMax cfg := (g.trans g1).const.max
  have hs0 : ¬ s < 0 := by split at hs <;> omega
  have hnone : h1.states[s.toNat]? = none := by
    rw [List.getElem?_eq_none]
    unfold cfgMax at hmx
    split at hs
    · next hc => rw [if_pos hc] at hmx; omega
    · next hc => rw [if_neg hc] at hmx; omega
  simp only [updateLMCounts, e1, ok_bind, if_pos h1l, historyLoop, if_neg hs0, hnone, error_bind]

/-- C14 at the hub: if each component leaves its counts alone when asked to add a non-positive
count, so does the hub. -/
theorem C14_hub_nonpositive_noop (hf : env.Fair) (hr : Reach env models cfg calls h) {γ : Type}
    {obs : σ → γ} (hq : env.toLMOps.QueryInvariant obs)
    (hu : ∀ m s cs n, n ≤ 0 → obs (env.update m s cs n).2 = obs m)
    {s : Int} {cs : List Int} {n : Int} (hn : n ≤ 0) {r : Bool}
    (he : updateLMCounts env h s cs n = .ok (r, h')) : h'.models.map obs = h.models.map obs := by
  have g := reach_good hf hr
  have key : ∀ (st : HubState A.C) (i : Nat) (ws : List A.C) (ms : List σ) b ms',
      updateLoop env st cs n i ws ms = .ok (b, ms') → ms'.map obs = ms.map obs := by
    intro st i ws
    induction ws generalizing i with
    | nil =>
      intro ms b ms' e
      simp only [updateLoop, Except.ok.injEq, Prod.mk.injEq] at e
      rw [e.2]
    | cons w ws ih =>
      intro ms b ms' e
      cases ms with
      | nil => simp [updateLoop] at e
      | cons m ms =>
        simp only [updateLoop] at e
        have hm := hu m (st.modelState i) cs n hn
        split at e
        · next m' hx =>
          simp only [Except.ok.injEq, Prod.mk.injEq] at e
          rw [hx] at hm
          rw [← e.2]; simp [hm]
        · next m' hx =>
          rw [hx] at hm
          obtain ⟨⟨b2, ms2⟩, e2, e⟩ := bind_ok.1 e
          simp only [Except.ok.injEq, Prod.mk.injEq] at e
          rw [← e.2]; simp [hm, ih _ _ _ _ e2]
  obtain ⟨h2, _, ht, ⟨_, _, h5⟩ | ⟨_, st, b, ms, _, e3, ht3, _⟩⟩ := update_parts hf g.inv he
  · subst h5; exact (hq.touches ht).symm
  · rw [← hq.touches ht3, key st 0 _ _ _ _ e3, ← hq.touches ht]

/-! ## Non-vacuity -/

theorem counter_fair : Demo.counter.Fair := ⟨fun _ => .rfl, fun _ => .rfl⟩

theorem counter_static :
    Demo.counter.toLMOps.Static (fun _ s _ => s + 1) (fun _ _ _ => ()) :=
  ⟨⟨fun _ _ _ => rfl, fun _ _ => rfl, fun _ _ _ => rfl, fun _ _ _ _ => rfl⟩, fun _ _ _ => rfl,
    fun _ _ _ => rfl, fun _ _ _ => rfl, fun _ _ => rfl, fun _ _ _ => rfl, fun _ _ _ _ => rfl,
    fun _ _ _ => rfl, fun _ _ => rfl, fun _ _ _ => rfl, fun _ _ _ _ => rfl⟩

theorem counter_scores : Demo.counter.ScoresOK := by
  intro m s r hr
  simp only [Demo.counter, Option.some.injEq] at hr
  subst hr; rfl

/-- A reachable hub with all hypotheses of C01–C07: a full table of ten states, after a wrap and
without any self-recycling. -/
example : ∃ h, Reach Demo.counter [()] Demo.cfg10
      [.context [1, 1, 1, 1, 1, 1, 1, 1, 1] (-1), .next 0 7, .next 0 8] h ∧
    h.states.length = 10 ∧ h.last = 2 ∧ h.selfRecycled = false ∧ h.valid 5 = true :=
  ⟨_, ⟨_, rfl, rfl⟩, rfl, rfl, rfl, rfl⟩

/-- and one with Bayesian history on two components (C08, C13). -/
example : ∃ h h' r, Reach Demo.counter [(), ()] Demo.cfgBayes [.update 0 [5, 6] 1] h ∧
    contextState Demo.counter h [5, 6, 7] (-1) = .ok (r, h') ∧ h'.selfRecycled = false ∧
    h.hlen = 2 :=
  ⟨_, _, _, ⟨_, rfl, rfl⟩, rfl, rfl, rfl⟩

end Mozolm.Hub
