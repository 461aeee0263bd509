import Verif.Hub.Closed
import Verif.Hub.Spec

/-!
# Hub: components that may only be asked about their own states

A component model is sound only at states it gave out.  `LMOps.guard` refuses all other calls.  The hub
never makes any: on every history it behaves with the guarded components as with the actual ones
(`Own.step`).  So whatever holds for components that are sound everywhere holds for components that are
sound at their own states.
-/

namespace Mozolm.Hub
variable {A : Arith} {σ : Type} {env : Env A σ} {live : σ → Prop} {ok : σ → Int → Prop}

/-- `live m`: the component works; `ok m s`: `s` is a state of `m`.  A working component asked about one of
its states goes on working, answers with one of its states, and loses none. -/
structure LMOps.ClosedOn (ops : LMOps A σ) (live : σ → Prop) (ok : σ → Int → Prop) : Prop where
  start : ∀ m, live m → ok m (ops.start m)
  next : ∀ m s c, live m → ok m s → ok (ops.next m s c).2 (ops.next m s c).1
  live_next : ∀ m s c, live m → ok m s → live (ops.next m s c).2
  live_extract : ∀ m s, live m → ok m s → live (ops.extract m s).2
  live_score : ∀ m s c, live m → ok m s → live (ops.symScore m s c).2
  live_update : ∀ m s cs n, live m → ok m s → live (ops.update m s cs n).2
  keep_next : ∀ m s c x, live m → ok m s → ok m x → ok (ops.next m s c).2 x
  keep_extract : ∀ m s x, live m → ok m s → ok m x → ok (ops.extract m s).2 x
  keep_score : ∀ m s c x, live m → ok m s → ok m x → ok (ops.symScore m s c).2 x
  keep_update : ∀ m s cs n x, live m → ok m s → ok m x → ok (ops.update m s cs n).2 x

open Classical in
/-- The same component refusing to be asked about states that are not its own. -/
noncomputable def LMOps.guard (ops : LMOps A σ) (live : σ → Prop) (ok : σ → Int → Prop) : LMOps A σ where
  start := ops.start
  next m s c := if live m ∧ ok m s then ops.next m s c else (ops.start m, m)
  extract m s := if live m ∧ ok m s then ops.extract m s else (none, m)
  symScore m s c := if live m ∧ ok m s then ops.symScore m s c else (A.one, m)
  update m s cs n := if live m ∧ ok m s then ops.update m s cs n else (false, m)

/-- The environment with guarded components. -/
noncomputable def Env.guard (env : Env A σ) (live : σ → Prop) (ok : σ → Int → Prop) : Env A σ where
  toLMOps := env.toLMOps.guard live ok
  orderN := env.orderN
  orderV := env.orderV

theorem Env.Fair.guard (hf : env.Fair) : (env.guard live ok).Fair := ⟨hf.permN, hf.permV⟩

theorem LMOps.guard_live {ops : LMOps A σ} (hc : ops.ClosedOn live ok) {a b : σ}
    (h : TouchU (ops.guard live ok) a b) (ha : live a) : live b := by
  classical
  induction h with
  | refl => exact ha
  | next s c _ ih =>
    simp only [LMOps.guard]; split
    · next hk => exact hc.live_next _ _ _ hk.1 hk.2
    · exact ih
  | extract s _ ih =>
    simp only [LMOps.guard]; split
    · next hk => exact hc.live_extract _ _ hk.1 hk.2
    · exact ih
  | score s c _ ih =>
    simp only [LMOps.guard]; split
    · next hk => exact hc.live_score _ _ _ hk.1 hk.2
    · exact ih
  | update s cs n _ ih =>
    simp only [LMOps.guard]; split
    · next hk => exact hc.live_update _ _ _ _ hk.1 hk.2
    · exact ih

theorem LMOps.ClosedOn.guard {ops : LMOps A σ} (hc : ops.ClosedOn live ok) :
    (ops.guard live ok).Closed (fun m s => live m → ok m s) where
  start m hl := hc.start m hl
  next m s c h _ := by
    simp only [LMOps.guard]; split
    · next hk => exact fun _ => hc.next _ _ _ hk.1 hk.2
    · exact fun hl => hc.start m hl
  keep_next m s c x h := by
    simp only [LMOps.guard]; split
    · next hk => exact fun _ => hc.keep_next _ _ _ _ hk.1 hk.2 (h hk.1)
    · exact h
  keep_extract m s x h := by
    simp only [LMOps.guard]; split
    · next hk => exact fun _ => hc.keep_extract _ _ _ hk.1 hk.2 (h hk.1)
    · exact h
  keep_score m s c x h := by
    simp only [LMOps.guard]; split
    · next hk => exact fun _ => hc.keep_score _ _ _ _ hk.1 hk.2 (h hk.1)
    · exact h
  keep_update m s cs n x h := by
    simp only [LMOps.guard]; split
    · next hk => exact fun _ => hc.keep_update _ _ _ _ _ hk.1 hk.2 (h hk.1)
    · exact h

/-- A table in order whose components all work and whose entries hold states of their components. -/
structure Own (live : σ → Prop) (ok : σ → Int → Prop) (h : Hub A σ) : Prop where
  inv : Inv h
  works : ∀ m ∈ h.models, live m
  all : AllOK (fun m s => live m → ok m s) h

theorem Own.at {h : Hub A σ} (ho : Own live ok h) {i : Nat} {st : HubState A.C} (hst : h.states[i]? = some st) :
    ∀ (j : Nat) (m : σ), h.models[j]? = some m → live m ∧ ok m (st.modelState (0 + j)) := by
  intro j m hm
  have hl := ho.works m (List.mem_of_getElem? hm)
  rw [Nat.zero_add]
  exact ⟨hl, ho.all i st hst j m hm hl⟩

theorem Own.good (hf : env.Fair) (hc : env.toLMOps.ClosedOn live ok) {h h' : Hub A σ} (ho : Own live ok h)
    (g : Good (env.guard live ok) h h') : Own live ok h' := by
  refine ⟨g.inv, ?_, g.pres _ _ (allOK_preserved hf.guard hc.guard) ho.all⟩
  intro m hm
  obtain ⟨j, hj, rfl⟩ := List.mem_iff_getElem.1 hm
  obtain ⟨m0, e1, e2⟩ := Pointwise.get' g.const.models (List.getElem?_eq_getElem hj)
  exact LMOps.guard_live hc e2 (ho.works m0 (List.mem_of_getElem? e1))

theorem nextAll_guard {ops : LMOps A σ} {st : HubState A.C} (c : Int) :
    ∀ (i : Nat) (ms : List σ), (∀ (j : Nat) (m : σ), ms[j]? = some m → live m ∧ ok m (st.modelState (i + j))) →
    nextAll ops st c i ms = nextAll (ops.guard live ok) st c i ms
  | _, [], _ => rfl
  | i, m :: ms, h => by
    have h0 := h 0 m rfl
    have ih := nextAll_guard (ops := ops) c (i + 1) ms (fun j m' hm => by
      have := h (j + 1) m' (by simpa using hm)
      rw [show i + 1 + j = i + (j + 1) by omega]; exact this)
    simp only [nextAll, ih]
    simp only [LMOps.guard, Nat.add_zero] at h0 ⊢
    rw [if_pos h0]

theorem scoreAll_guard {ops : LMOps A σ} {st : HubState A.C} (c : Int) :
    ∀ (i : Nat) (ms : List σ), (∀ (j : Nat) (m : σ), ms[j]? = some m → live m ∧ ok m (st.modelState (i + j))) →
    scoreAll ops st c i ms = scoreAll (ops.guard live ok) st c i ms
  | _, [], _ => rfl
  | i, m :: ms, h => by
    have h0 := h 0 m rfl
    have ih := scoreAll_guard (ops := ops) c (i + 1) ms (fun j m' hm => by
      have := h (j + 1) m' (by simpa using hm)
      rw [show i + 1 + j = i + (j + 1) by omega]; exact this)
    simp only [scoreAll, ih]
    simp only [LMOps.guard, Nat.add_zero] at h0 ⊢
    rw [if_pos h0]

theorem extractLoop_guard {st : HubState A.C} :
    ∀ (i : Nat) (ws : List A.C) (ms : List σ) (acc : List (Str × A.C)) (norm : A.D),
    (∀ (j : Nat) (m : σ), ms[j]? = some m → live m ∧ ok m (st.modelState (i + j))) →
    extractLoop env st i ws ms acc norm = extractLoop (env.guard live ok) st i ws ms acc norm
  | _, [], _, _, _, _ => rfl
  | _, _ :: _, [], _, _, _ => rfl
  | i, w :: ws, m :: ms, acc, norm, h => by
    have h0 := h 0 m rfl
    have ih := fun acc norm => extractLoop_guard (i + 1) ws ms acc norm (fun j m' hm => by
      have := h (j + 1) m' (by simpa using hm)
      rw [show i + 1 + j = i + (j + 1) by omega]; exact this)
    simp only [Nat.add_zero] at h0
    have he : (env.guard live ok).extract m (st.modelState i) = env.extract m (st.modelState i) := by
      simp only [Env.guard, LMOps.guard]; rw [if_pos h0]
    simp only [extractLoop, ih, he]

theorem updateLoop_guard {st : HubState A.C} {cs : List Int} {n : Int} :
    ∀ (i : Nat) (ws : List A.C) (ms : List σ),
    (∀ (j : Nat) (m : σ), ms[j]? = some m → live m ∧ ok m (st.modelState (i + j))) →
    updateLoop env st cs n i ws ms = updateLoop (env.guard live ok) st cs n i ws ms
  | _, [], _, _ => rfl
  | _, _ :: _, [], _ => rfl
  | i, w :: ws, m :: ms, h => by
    have h0 := h 0 m rfl
    have ih := updateLoop_guard (cs := cs) (n := n) (i + 1) ws ms (fun j m' hm => by
      have := h (j + 1) m' (by simpa using hm)
      rw [show i + 1 + j = i + (j + 1) by omega]; exact this)
    simp only [Nat.add_zero] at h0
    have he : (env.guard live ok).update m (st.modelState i) cs n = env.update m (st.modelState i) cs n := by
      simp only [Env.guard, LMOps.guard]; rw [if_pos h0]
    simp only [updateLoop, ih, he]

theorem Own.bayes {h : Hub A σ} (ho : Own live ok h) (s : Nat) :
    updateBayesianHistory env h s = updateBayesianHistory (env.guard live ok) h s := by
  unfold updateBayesianHistory
  split
  · rfl
  · split
    · rfl
    · next st hst =>
      split
      · rfl
      · split
        · rfl
        · next pst hp =>
          rw [scoreAll_guard (ops := env.toLMOps) st.sym 0 h.models (ho.at hp)]
          rfl

theorem Own.nextState (hf : env.Fair) (hc : env.toLMOps.ClosedOn live ok) {h : Hub A σ} (ho : Own live ok h)
    (s c : Int) : Hub.nextState env h s c = Hub.nextState (env.guard live ok) h s c := by
  obtain ⟨st, hst⟩ := exists_getElem?_of_lt (source_lt ho.inv s)
  have hst' : h.states[if h.valid s then s.toNat else 0]? = some st := hst
  simp only [Hub.nextState, hst']
  split
  · rfl
  · next hn =>
    have hc0 : 0 ≤ c := by omega
    have hl : HubState.lookup st.nexts c = none := by
      cases e : HubState.lookup st.nexts c with
      | none => rfl
      | some k => simp [HubState.nextState, e] at hn
    rw [nextAll_guard (ops := env.toLMOps) c 0 h.models (ho.at hst)]
    have ht := nextAll_touches (env.guard live ok).toLMOps st c 0 h.models
    have hi' := ho.inv.setModels ht.length_eq.symm
    have hlen : (nextAll (env.guard live ok).toLMOps st c 0 h.models).1.length =
        (nextAll (env.guard live ok).toLMOps st c 0 h.models).2.length := by
      rw [nextAll_length]; exact ht.length_eq
    have e1 := assignNew_eq hf hi' hlen (source_lt ho.inv s) c
    have e2 := assignNew_eq (hf.guard (live := live) (ok := ok)) hi' hlen (source_lt ho.inv s) c
    have hown : Own live ok (createdFrom (env.guard live ok) h (source h s) st c) := by
      refine ⟨createdFrom_inv hf.guard ho.inv hst hc0 hl, ?_,
        (allOK_preserved hf.guard hc.guard).create h _ st c ho.inv ho.all hst hl hc0⟩
      intro m hm
      obtain ⟨j, hj, rfl⟩ := List.mem_iff_getElem.1 hm
      obtain ⟨m0, f1, f2⟩ := Pointwise.get' ht (List.getElem?_eq_getElem hj)
      exact LMOps.guard_live hc f2.toU (ho.works m0 (List.mem_of_getElem? f1))
    have e3 : assignNew env { h with models := (nextAll (env.guard live ok).toLMOps st c 0 h.models).2 }
        (nextAll (env.guard live ok).toLMOps st c 0 h.models).1 (if h.valid s then s.toNat else 0) c =
        assignNew (env.guard live ok) { h with models := (nextAll (env.guard live ok).toLMOps st c 0 h.models).2 }
        (nextAll (env.guard live ok).toLMOps st c 0 h.models).1 (if h.valid s then s.toNat else 0) c := by
      refine e1.trans (Eq.trans ?_ e2.symm)
      have : updateBayesianHistory env (createdFrom (env.guard live ok) h (source h s) st c) (victim h) =
        updateBayesianHistory (env.guard live ok) (createdFrom (env.guard live ok) h (source h s) st c) (victim h) :=
        hown.bayes _
      exact congrArg (fun r : Except Fault (Hub A σ) => r >>= fun h2 => .ok (some (victim h), h2)) this
    simp only [Env.guard] at e3 ⊢
    rw [e3]

theorem Own.contextLoop (hf : env.Fair) (hc : env.toLMOps.ClosedOn live ok) {h : Hub A σ} (ho : Own live ok h)
    (s : Int) (cs : List Int) :
    Hub.contextLoop env h s cs = Hub.contextLoop (env.guard live ok) h s cs := by
  induction cs generalizing h s with
  | nil => rfl
  | cons c cs ih =>
    obtain ⟨r, h', e, g⟩ := nextState_ok (hf.guard (live := live) (ok := ok)) ho.inv s c
    simp only [Hub.contextLoop, ho.nextState hf hc, e, ok_bind]
    exact ih (ho.good hf hc g) _

theorem Own.extract {h : Hub A σ} (ho : Own live ok h) (s : Int) :
    extractLMScores env h s = extractLMScores (env.guard live ok) h s := by
  unfold extractLMScores
  split
  · rfl
  · split
    · rfl
    · next st hst =>
      split
      · split
        · rfl
        · next m ms hm =>
          have h0 := ho.at hst 0 m (by rw [hm]; rfl)
          have he : (env.guard live ok).extract m (st.modelState 0) = env.extract m (st.modelState 0) := by
            simp only [Env.guard, LMOps.guard]; rw [if_pos h0]
          rw [he]
      · have := fun ws => extractLoop_guard (env := env) 0 ws h.models [] (A.ofInt 0) (ho.at hst)
        simp only [this]
        rfl

theorem Own.ensureStates (hf : env.Fair) (hc : env.toLMOps.ClosedOn live ok) {h : Hub A σ} (ho : Own live ok h)
    (s : Int) (cs : List Int) :
    Hub.ensureStates env h s cs = Hub.ensureStates (env.guard live ok) h s cs := by
  induction cs generalizing h s with
  | nil => rfl
  | cons c cs ih =>
    obtain ⟨r, h', e, g⟩ := nextState_ok (hf.guard (live := live) (ok := ok)) ho.inv s c
    simp only [Hub.ensureStates, ho.nextState hf hc, e, ok_bind]
    exact ih (ho.good hf hc g) _

theorem Own.historyEach (hf : env.Fair) (hc : env.toLMOps.ClosedOn live ok) {h : Hub A σ} (ho : Own live ok h)
    (es : List (Int × Nat)) (hes : ∀ e ∈ es, e.2 < h.states.length) :
    Hub.historyEach env h es = Hub.historyEach (env.guard live ok) h es := by
  induction es generalizing h with
  | nil => rfl
  | cons e es ih =>
    obtain ⟨h', e1, g, f⟩ := historyEach_ok (env := env.guard live ok) ho.inv [e]
      (fun x hx => hes x (by simp at hx; simp [hx]))
    simp only [Hub.historyEach] at e1
    obtain ⟨h'', e2, e3⟩ := bind_ok.1 e1
    cases e3
    simp only [Hub.historyEach, ho.bayes (env := env), e2, ok_bind]
    exact ih (ho.good hf hc g) (fun x hx => by rw [f.len]; exact hes x (by simp [hx]))

theorem Own.historyLoop (hf : env.Fair) (hc : env.toLMOps.ClosedOn live ok) {h : Hub A σ} (ho : Own live ok h)
    (s : Int) (cs : List Int) :
    Hub.historyLoop env h s cs = Hub.historyLoop (env.guard live ok) h s cs := by
  induction cs generalizing h s with
  | nil => rfl
  | cons c cs ih =>
    simp only [Hub.historyLoop]
    split
    · rfl
    · split
      · rfl
      · next st hst =>
        have hx : ∀ e ∈ env.orderN st.nexts, e.2 < h.states.length := fun e hm =>
          (ho.inv.st _ st hst).target_lt ((hf.permN _).mem_iff.1 hm)
        obtain ⟨h1, e1, g1, _⟩ := historyEach_ok (env := env.guard live ok) ho.inv _ hx
        have ho1 := ho.good hf hc g1
        obtain ⟨r, h2, e2, g2⟩ := nextState_ok (hf.guard (live := live) (ok := ok)) g1.inv s c
        have e1' : Hub.historyEach (env.guard live ok) h ((env.guard live ok).orderN st.nexts) = .ok h1 := e1
        rw [ho.historyEach hf hc _ hx, e1, e1']
        simp only [ok_bind, ho1.nextState hf hc, e2]
        exact ih (ho1.good hf hc g2) _

theorem Own.verifyLoop (hf : env.Fair) (hc : env.toLMOps.ClosedOn live ok) {h : Hub A σ} (ho : Own live ok h)
    (s : Nat) (cs : List Int) :
    Hub.verifyLoop env h s cs = Hub.verifyLoop (env.guard live ok) h s cs := by
  induction cs generalizing h s with
  | nil => rfl
  | cons c cs ih =>
    simp only [Hub.verifyLoop]
    split
    · rfl
    · next st hst =>
      rw [nextAll_guard (ops := env.toLMOps) c 0 h.models (ho.at hst)]
      have hs := lt_of_getElem?_eq_some hst
      cases hl : HubState.lookup st.nexts c with
      | none => rfl
      | some k =>
        obtain ⟨_, _, _, kst, hk, _⟩ := (ho.inv.st _ st hst).edges c k (lookup_mem hl)
        simp only [hk]
        obtain ⟨r1, h1, e1, g1⟩ := verifyLoop_ok (env := env.guard live ok) ho.inv hs [c]
        simp only [Hub.verifyLoop, hst, hl, hk] at e1
        obtain ⟨v, e2, e3⟩ := bind_ok.1 e1
        have hgg : (env.guard live ok).toLMOps = env.toLMOps.guard live ok := rfl
        rw [hgg] at e2 e3 ⊢
        simp only [e2, ok_bind]
        split
        · next hv =>
          rw [if_pos hv] at e3
          cases e3
          exact ih (ho.good hf hc g1) _
        · rfl

theorem Own.update (hf : env.Fair) (hc : env.toLMOps.ClosedOn live ok) {h : Hub A σ} (ho : Own live ok h)
    (s : Int) (cs : List Int) (n : Int) :
    updateLMCounts env h s cs n = updateLMCounts (env.guard live ok) h s cs n := by
  obtain ⟨h1, e1, g1⟩ := ensureStates_ok (hf.guard (live := live) (ok := ok)) ho.inv s cs
  have ho1 := ho.good hf hc g1
  simp only [updateLMCounts, ho.ensureStates hf hc, e1, ok_bind, ho1.historyLoop hf hc]
  cases e2 : (if 0 < h1.hlen then Hub.historyLoop (env.guard live ok) h1 s cs else .ok h1) with
  | error f => rfl
  | ok h2 =>
    have g2 : Good (env.guard live ok) h1 h2 := by
      split at e2
      · exact historyLoop_good hf.guard g1.inv e2
      · cases e2; exact Good.refl g1.inv
    have ho2 := ho1.good hf hc g2
    simp only [ok_bind]
    split
    · split
      · rfl
      · next st hst =>
        rw [updateLoop_guard (env := env) (cs := cs) (n := n) 0 h2.weights h2.models (ho2.at hst)]
        cases e3 : updateLoop (env.guard live ok) st cs n 0 h2.weights h2.models with
        | error f => rfl
        | ok r =>
          obtain ⟨b, ms⟩ := r
          have g3 : Good (env.guard live ok) h2 { h2 with models := ms } :=
            Good.setModels g2.inv (updateLoop_touches _ _ _ _ _ e3)
          simp only [ok_bind, (ho2.good hf hc g3).verifyLoop hf hc]
    · rfl

/-- One call of the API: the guard makes no difference, and the table stays in order. -/
theorem Own.step (hf : env.Fair) (hc : env.toLMOps.ClosedOn live ok) {h : Hub A σ} (ho : Own live ok h)
    (c : Call) : Hub.step env h c = Hub.step (env.guard live ok) h c := by
  cases c with
  | next s c => simp only [Hub.step, ho.nextState hf hc]
  | context cs s => simp only [Hub.step, contextState, ho.contextLoop hf hc]
  | extract s => simp only [Hub.step, ho.extract (env := env)]
  | update s cs n => simp only [Hub.step, ho.update hf hc]

theorem Own.run (hf : env.Fair) (hc : env.toLMOps.ClosedOn live ok) {h : Hub A σ} (ho : Own live ok h)
    (cs : List Call) : Hub.run env h cs = Hub.run (env.guard live ok) h cs := by
  induction cs generalizing h with
  | nil => rfl
  | cons c cs ih =>
    simp only [Hub.run, ho.step hf hc]
    cases e : Hub.step (env.guard live ok) h c with
    | error f => rfl
    | ok h1 =>
      simp only [ok_bind]
      exact ih (ho.good hf hc (step_good hf.guard ho.inv e))

theorem Own.run_own (hf : env.Fair) (hc : env.toLMOps.ClosedOn live ok) {h h' : Hub A σ} (ho : Own live ok h)
    {cs : List Call} (he : Hub.run env h cs = .ok h') : Own live ok h' := by
  rw [ho.run hf hc] at he
  exact ho.good hf hc (run_good hf.guard ho.inv he)

theorem initial_own (hc : env.toLMOps.ClosedOn live ok) {models : List σ} (hl : ∀ m ∈ models, live m)
    (ws : List A.C) (hlen : Nat) {max : Nat} (hmax : 10 ≤ max) :
    Own live ok (initial env models ws hlen max) :=
  ⟨initial_inv env models ws hlen hmax, hl,
    initial_allOK (env := env.guard live ok) hc.guard models ws hlen max⟩

/-- The guard makes no difference to the hubs reached. -/
theorem reach_guard (hf : env.Fair) (hc : env.toLMOps.ClosedOn live ok) {models : List σ}
    (hl : ∀ m ∈ models, live m) (cfg : HubConfig A.C) (calls : List Call) (h : Hub A σ) :
    Reach env models cfg calls h ↔ Reach (env.guard live ok) models cfg calls h := by
  have key : ∀ (e : Env A σ), e.Fair → (Reach e models cfg calls h ↔ cfg.mixture ≠ .unknown ∧
      Hub.run e (initial e models (cfgWeights cfg) (cfgHlen cfg) (cfgMax cfg)) calls = .ok h) := by
    intro e he
    unfold Reach
    rw [initialize_eq he]
    by_cases hm : cfg.mixture = .unknown
    · simp [hm]
    · simp only [if_neg hm, Except.ok.injEq, Option.some.injEq, exists_eq_left']
      simp [hm]
  rw [key env hf, key _ hf.guard]
  have := (initial_own (env := env) hc hl (cfgWeights cfg) (cfgHlen cfg) (cfgMax_ge cfg)).run hf hc calls
  rw [this]
  rfl

theorem reach_own (hf : env.Fair) (hc : env.toLMOps.ClosedOn live ok) {models : List σ}
    (hl : ∀ m ∈ models, live m) {cfg : HubConfig A.C} {calls : List Call} {h : Hub A σ}
    (hr : Reach env models cfg calls h) : Own live ok h := by
  obtain ⟨h0, e1, e2⟩ := hr
  rw [initialize_eq hf] at e1
  split at e1
  · cases e1
  · cases e1
    exact (initial_own hc hl _ _ (cfgMax_ge cfg)).run_own hf hc e2

end Mozolm.Hub
