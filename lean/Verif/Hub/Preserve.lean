import Verif.Hub.Inv

/-! # Hub: a generic preservation principle for all calls -/

namespace Mozolm.Hub
variable {A : Arith} {σ : Type}

/-- What never changes: configuration; the table only grows; components change by their own
operations only. -/
structure Const (env : Env A σ) (h h' : Hub A σ) : Prop where
  max : h'.max = h.max
  weights : h'.weights = h.weights
  hlen : h'.hlen = h.hlen
  ghost : h.selfRecycled = true → h'.selfRecycled = true
  len : h.states.length ≤ h'.states.length
  models : TouchesU env.toLMOps h.models h'.models

theorem Const.refl (env : Env A σ) (h : Hub A σ) : Const env h h :=
  ⟨rfl, rfl, rfl, id, Nat.le_refl _, TouchesU.refl _ _⟩

theorem Const.trans {env : Env A σ} {a b c : Hub A σ} (h : Const env a b) (h' : Const env b c) :
    Const env a c :=
  ⟨h'.max.trans h.max, h'.weights.trans h.weights, h'.hlen.trans h.hlen,
    fun x => h'.ghost (h.ghost x), Nat.le_trans h.len h'.len, h.models.trans h'.models⟩

theorem Frame.const {env : Env A σ} {h h' : Hub A σ} (f : Frame env h h') : Const env h h' :=
  ⟨f.max, f.weights, f.hlen, fun x => by rw [f.ghost]; exact x, Nat.le_of_eq f.len.symm,
    f.models.toU⟩

/-- The hub after creating the successor of `s` (holding `st`) by `c`, before the history update. -/
def createdFrom (env : Env A σ) (h : Hub A σ) (s : Nat) (st : HubState A.C) (c : Int) : Hub A σ :=
  created env { h with models := (nextAll env.toLMOps st c 0 h.models).2 }
    (nextAll env.toLMOps st c 0 h.models).1 s c

/-- The table after the verification step of an edge. -/
def verified (env : Env A σ) (h : Hub A σ) (st : HubState A.C) (c : Int) (k : Nat)
    (kst : HubState A.C) : Hub A σ :=
  { h with
    states := h.states.set k { kst with modelStates := (nextAll env.toLMOps st c 0 h.models).1 }
    models := (nextAll env.toLMOps st c 0 h.models).2 }

/-- A property of hubs (with its variant `Pend` holding between creation and the history update)
preserved by every elementary step. -/
structure Preserved (env : Env A σ) (P : Hub A σ → Prop) (Pend : Nat → Hub A σ → Prop) : Prop where
  models : ∀ h ms, Inv h → P h → TouchesU env.toLMOps h.models ms → P { h with models := ms }
  create : ∀ h s st c, Inv h → P h → h.states[s]? = some st →
    HubState.lookup st.nexts c = none → 0 ≤ c → Pend (victim h) (createdFrom env h s st c)
  pend : ∀ h s, Inv h → s < h.states.length → Pend s h → P (bayesed env h s)
  hist : ∀ h s, Inv h → s < h.states.length → P h → P (bayesed env h s)
  verify : ∀ h (s k : Nat) st kst c, Inv h → P h → h.states[s]? = some st →
    HubState.lookup st.nexts c = some k → h.states[k]? = some kst → kst.prev = s → kst.sym = c →
    P (verified env h st c k kst)

/-- `h'` satisfies the invariant and everything preserved that `h` satisfies. -/
structure Good (env : Env A σ) (h h' : Hub A σ) : Prop where
  inv : Inv h'
  const : Const env h h'
  pres : ∀ P Pend, Preserved env P Pend → P h → P h'

theorem Good.refl {env : Env A σ} {h : Hub A σ} (hi : Inv h) : Good env h h :=
  ⟨hi, Const.refl _ _, fun _ _ _ h => h⟩

theorem Good.trans {env : Env A σ} {a b c : Hub A σ} (h : Good env a b) (h' : Good env b c) :
    Good env a c :=
  ⟨h'.inv, h.const.trans h'.const, fun P Q pr x => h'.pres P Q pr (h.pres P Q pr x)⟩

theorem Good.setModels {env : Env A σ} {h : Hub A σ} (hi : Inv h) {ms : List σ}
    (hm : TouchesU env.toLMOps h.models ms) : Good env h { h with models := ms } :=
  ⟨hi.setModels hm.length_eq.symm, ⟨rfl, rfl, rfl, id, Nat.le_refl _, hm⟩,
    fun _ _ pr x => pr.models h ms hi x hm⟩

/-! ## NextState -/

/-- the state actually used by `NextState` -/
def source (h : Hub A σ) (s : Int) : Nat := if h.valid s then s.toNat else 0

theorem source_lt {h : Hub A σ} (hi : Inv h) (s : Int) : source h s < h.states.length := by
  have := hi.pos
  unfold source Hub.valid
  split
  · next hv => simp only [Bool.and_eq_true, decide_eq_true_eq] at hv; omega
  · exact this

theorem source_valid {h : Hub A σ} {s : Int} (h0 : 0 ≤ s) (h1 : s < h.states.length) :
    (source h s : Int) = s := by
  unfold source Hub.valid
  simp only [h0, h1, decide_true, Bool.and_true, if_true]
  omega

theorem createdFrom_inv {env : Env A σ} (hf : env.Fair) {h : Hub A σ} (hi : Inv h) {s : Nat}
    {st : HubState A.C} (hst : h.states[s]? = some st) {c : Int} (hc : 0 ≤ c)
    (hl : HubState.lookup st.nexts c = none) : Inv (createdFrom env h s st c) := by
  have ht := nextAll_touches env.toLMOps st c 0 h.models
  have hi' := hi.setModels ht.length_eq.symm
  refine created_inv hf hi' ?_ hst hc hl
  rw [nextAll_length]
  exact ht.length_eq

theorem createdFrom_victim_lt {env : Env A σ} {h : Hub A σ} (hi : Inv h) (s : Nat)
    (st : HubState A.C) (c : Int) : victim h < (createdFrom env h s st c).states.length := by
  have ht := nextAll_touches env.toLMOps st c 0 h.models
  have hi' := hi.setModels ht.length_eq.symm
  unfold createdFrom created
  rw [addEdge_length]
  exact victim_lt hi' env _

/-- Everything about one `NextState` call. -/
inductive NextOut (env : Env A σ) (h : Hub A σ) (s : Int) (c : Int) : Int → Hub A σ → Prop
  | bad (hc : c < 0) : NextOut env h s c (-1) h
  | cached (hc : 0 ≤ c) (st : HubState A.C) (k : Nat) (hst : h.states[source h s]? = some st)
      (hk : HubState.lookup st.nexts c = some k) : NextOut env h s c k h
  | new (hc : 0 ≤ c) (st : HubState A.C) (hst : h.states[source h s]? = some st)
      (hk : HubState.lookup st.nexts c = none) :
      NextOut env h s c (victim h)
        (bayesed env (createdFrom env h (source h s) st c) (victim h))

theorem lookup_neg {h : Hub A σ} (hi : Inv h) {i : Nat} {st : HubState A.C}
    (hst : h.states[i]? = some st) {c : Int} (hc : c < 0) : HubState.lookup st.nexts c = none := by
  cases hl : HubState.lookup st.nexts c with
  | none => rfl
  | some k =>
    have := ((hi.st i st hst).edges c k (lookup_mem hl)).1
    omega

theorem nextState_out {env : Env A σ} (hf : env.Fair) {h : Hub A σ} (hi : Inv h) (s c : Int) :
    ∃ r h', nextState env h s c = .ok (r, h') ∧ NextOut env h s c r h' := by
  have hslt := source_lt hi s
  obtain ⟨st, hst⟩ := exists_getElem?_of_lt hslt
  have hst' : h.states[if h.valid s then s.toNat else 0]? = some st := hst
  by_cases hc : c < 0
  · refine ⟨-1, h, ?_, .bad hc⟩
    simp only [nextState, hst', HubState.nextState, lookup_neg hi hst hc, hc, true_or, if_true]
  · have hc' : 0 ≤ c := by omega
    cases hl : HubState.lookup st.nexts c with
    | some k =>
      refine ⟨k, h, ?_, .cached hc' st k hst hl⟩
      simp only [nextState, hst', HubState.nextState, hl]
      rw [if_pos (Or.inr (by omega))]
    | none =>
      refine ⟨victim h, _, ?_, .new hc' st hst hl⟩
      simp only [nextState, hst', HubState.nextState, hl]
      rw [if_neg (by omega)]
      have ht := nextAll_touches env.toLMOps st c 0 h.models
      have hi' := hi.setModels ht.length_eq.symm
      have e := assignNew_eq hf hi' (ms := (nextAll env.toLMOps st c 0 h.models).1)
        (by rw [nextAll_length]; exact ht.length_eq) hslt c
      have hci := createdFrom_inv hf hi hst hc' hl
      have hv := createdFrom_victim_lt (env := env) hi (source h s) st c
      have hb := bayes_eq (env := env) hci hv
      have e' : assignNew env { h with models := (nextAll env.toLMOps st c 0 h.models).2 }
          (nextAll env.toLMOps st c 0 h.models).1 (source h s) c =
          .ok (some (victim h),
            bayesed env (createdFrom env h (source h s) st c) (victim h)) := by
        rw [e]
        have hb' : updateBayesianHistory env
          (created env { h with models := (nextAll env.toLMOps st c 0 h.models).2 }
            (nextAll env.toLMOps st c 0 h.models).1 (source h s) c)
          (victim { h with models := (nextAll env.toLMOps st c 0 h.models).2 }) =
            .ok (bayesed env (createdFrom env h (source h s) st c) (victim h)) := hb
        rw [hb']
        rfl
      have e'' : assignNew env { h with models := (nextAll env.toLMOps st c 0 h.models).2 }
          (nextAll env.toLMOps st c 0 h.models).1 (if h.valid s then s.toNat else 0) c =
          .ok (some (victim h),
            bayesed env (createdFrom env h (source h s) st c) (victim h)) := e'
      rw [e'']

theorem createdFrom_const {env : Env A σ} (h : Hub A σ) (s : Nat) (st : HubState A.C) (c : Int) :
    Const env h (createdFrom env h s st c) := by
  refine ⟨rfl, rfl, rfl, ?_, ?_, (nextAll_touches env.toLMOps st c 0 h.models).toU⟩
  · intro x; simp [createdFrom, created, x]
  · unfold createdFrom
    rw [created_length]
    show h.states.length ≤ if h.states.length < h.max then _ else _
    split
    · exact Nat.le_succ _
    · exact Nat.le_refl _

theorem NextOut.good {env : Env A σ} (hf : env.Fair) {h h' : Hub A σ} (hi : Inv h) {s c r : Int}
    (ho : NextOut env h s c r h') : Good env h h' := by
  cases ho with
  | bad => exact Good.refl hi
  | cached => exact Good.refl hi
  | new hc st hst hk =>
    have hci := createdFrom_inv hf hi hst hc hk
    have hv := createdFrom_victim_lt (env := env) hi (source h s) st c
    refine ⟨bayesed_inv hci _, (createdFrom_const h _ st c).trans (bayesed_frame _ _ _).const, ?_⟩
    intro P Q pr x
    exact pr.pend _ _ hci hv (pr.create h _ st c hi x hst hk hc)

theorem NextOut.range {env : Env A σ} (hf : env.Fair) {h h' : Hub A σ} (hi : Inv h) {s c r : Int}
    (ho : NextOut env h s c r h') (hc : 0 ≤ c) :
    ∃ k : Nat, r = k ∧ 1 ≤ k ∧ k < h'.states.length ∧
      (∃ kst, h'.states[k]? = some kst ∧ kst.sym = c) ∧
      ∃ sst, h'.states[source h s]? = some sst ∧ HubState.lookup sst.nexts c = some k := by
  cases ho with
  | bad hc' => omega
  | cached hc st k hst hk =>
    obtain ⟨_, h1, _, kst, h3, h4⟩ := (hi.st _ st hst).edges c k (lookup_mem hk)
    exact ⟨k, rfl, h1, lt_of_getElem?_eq_some h3, ⟨kst, h3, h4⟩, st, hst, hk⟩
  | new hc st hst hk =>
    have ht := nextAll_touches env.toLMOps st c 0 h.models
    have hi' := hi.setModels ht.length_eq.symm
    have hci := createdFrom_inv hf hi hst hc hk
    obtain ⟨vst, v1, v2, _, _, _, _, _, v8⟩ := created_new (env := env)
      (ms := (nextAll env.toLMOps st c 0 h.models).1) hf hi' hst hk
    have hfr := bayesed_frame env (createdFrom env h (source h s) st c) (victim h)
    obtain ⟨vst', w1, w2, w3, _⟩ := hfr.symm_st v1
    refine ⟨victim h, rfl, victim_pos hi, lt_of_getElem?_eq_some w1, ⟨vst', w1, w3.trans v2⟩, ?_⟩
    by_cases he : source h s = victim h
    · refine ⟨vst', (congrArg (fun i => (bayesed env (createdFrom env h (source h s) st c)
        (victim h)).states[i]?) he).trans w1, ?_⟩
      rw [w2, v8]
      have : victim { h with models := (nextAll env.toLMOps st c 0 h.models).2 } = source h s := he.symm
      rw [if_pos this]
      simp only [HubState.lookup, if_true]
      rfl
    · obtain ⟨sst, s1, _, _, _, _, _, _, s8⟩ := created_other (env := env)
        (ms := (nextAll env.toLMOps st c 0 h.models).1) hf hi' hst hk he hst
      obtain ⟨sst', t1, t2, _⟩ := hfr.symm_st s1
      refine ⟨sst', t1, ?_⟩
      rw [t2, s8, if_pos rfl]
      exact lookup_append_new (kept_lookup hk)

/-- `NextState` never fails. -/
theorem nextState_ok {env : Env A σ} (hf : env.Fair) {h : Hub A σ} (hi : Inv h) (s c : Int) :
    ∃ r h', nextState env h s c = .ok (r, h') ∧ Good env h h' := by
  obtain ⟨r, h', e, o⟩ := nextState_out hf hi s c
  exact ⟨r, h', e, o.good hf hi⟩

theorem nextState_good {env : Env A σ} (hf : env.Fair) {h h' : Hub A σ} (hi : Inv h) {s c r : Int}
    (he : nextState env h s c = .ok (r, h')) : Good env h h' ∧ NextOut env h s c r h' := by
  obtain ⟨r', h'', e, o⟩ := nextState_out hf hi s c
  rw [he] at e; cases e
  exact ⟨o.good hf hi, o⟩

/-! ## ContextState -/

theorem contextLoop_ok {env : Env A σ} (hf : env.Fair) {h : Hub A σ} (hi : Inv h) (s : Int)
    (cs : List Int) : ∃ r h', contextLoop env h s cs = .ok (r, h') ∧ Good env h h' ∧
      (cs ≠ [] → 0 ≤ r ∧ r < h'.states.length) ∧ (cs = [] → r = s) := by
  induction cs generalizing h s with
  | nil => exact ⟨s, h, rfl, Good.refl hi, fun h => absurd rfl h, fun _ => rfl⟩
  | cons c cs ih =>
    obtain ⟨r, h', e, o⟩ := nextState_out hf hi s c
    have g := o.good hf hi
    obtain ⟨r2, h2, e2, g2, n2, m2⟩ := ih g.inv (if r < 0 then 0 else r)
    refine ⟨r2, h2, ?_, g.trans g2, fun _ => ?_, fun h => by cases h⟩
    · simp only [contextLoop, e, ok_bind]; exact e2
    · by_cases hcs : cs = []
      · have := m2 hcs
        subst hcs
        have : h2 = h' := by
          simp only [contextLoop, Except.ok.injEq, Prod.mk.injEq] at e2; exact e2.2.symm
        subst this
        have m2 := m2 rfl
        subst m2
        have hpos := g.inv.pos
        by_cases hc : c < 0
        · cases o with
          | bad => simp; exact hpos
          | cached hc' => omega
          | new hc' => omega
        · obtain ⟨k, rfl, k1, k2, _⟩ := o.range hf hi (by omega)
          rw [if_neg (by omega)]
          omega
      · exact n2 hcs

/-! ## ExtractLMScores -/

theorem extractLoop_touches {env : Env A σ} {st : HubState A.C} :
    ∀ (i : Nat) (ws : List A.C) (ms : List σ) (acc : List (Str × A.C)) (norm : A.D) r ms',
    extractLoop env st i ws ms acc norm = .ok (r, ms') → Touches env.toLMOps ms ms'
  | i, [], ms, acc, norm, r, ms', h => by
    simp only [extractLoop, Except.ok.injEq, Prod.mk.injEq] at h
    rw [← h.2]; exact Touches.refl _ _
  | i, w :: ws, [], acc, norm, r, ms', h => by simp [extractLoop] at h
  | i, w :: ws, m :: ms, acc, norm, r, ms', h => by
    simp only [extractLoop] at h
    have ht : Touch env.toLMOps m (env.extract m (st.modelState i)).2 := .extract _ (.refl m)
    split at h
    · next m' he =>
      simp only [Except.ok.injEq, Prod.mk.injEq] at h
      rw [← h.2]
      rw [he] at ht
      exact .cons ht (Touches.refl _ _)
    · next x m' he =>
      rw [he] at ht
      obtain ⟨mr, e1, h⟩ := bind_ok.1 h
      obtain ⟨rest, e2, h⟩ := bind_ok.1 h
      simp only [Except.ok.injEq, Prod.mk.injEq] at h
      rw [← h.2]
      exact .cons ht (extractLoop_touches _ _ _ _ _ rest.1 rest.2 e2)

theorem extract_states {env : Env A σ} {h h' : Hub A σ} {s : Int} {r : Option (LMScores A.D)}
    (he : extractLMScores env h s = .ok (r, h')) :
    ∃ ms, Touches env.toLMOps h.models ms ∧ h' = { h with models := ms } := by
  simp only [extractLMScores] at he
  split at he
  · simp only [Except.ok.injEq, Prod.mk.injEq] at he
    exact ⟨h.models, Touches.refl _ _, he.2.symm⟩
  · split at he
    · cases he
    · next st hst =>
      split at he
      · split at he
        · cases he
        · next m ms hm =>
          simp only [Except.ok.injEq, Prod.mk.injEq] at he
          refine ⟨_, ?_, he.2.symm⟩
          rw [hm]
          exact .cons (.extract _ (.refl m)) (Touches.refl _ _)
      · obtain ⟨ws, e1, he⟩ := bind_ok.1 he
        obtain ⟨⟨x, ms⟩, e2, he⟩ := bind_ok.1 he
        have ht := extractLoop_touches _ _ _ _ _ _ _ e2
        cases x with
        | none =>
          simp only [Except.ok.injEq, Prod.mk.injEq] at he
          exact ⟨ms, ht, he.2.symm⟩
        | some p =>
          simp only [Except.ok.injEq, Prod.mk.injEq] at he
          exact ⟨ms, ht, he.2.symm⟩

theorem extract_good {env : Env A σ} {h h' : Hub A σ} (hi : Inv h) {s : Int}
    {r : Option (LMScores A.D)} (he : extractLMScores env h s = .ok (r, h')) : Good env h h' := by
  obtain ⟨ms, ht, rfl⟩ := extract_states he
  exact Good.setModels hi ht.toU

/-! ## UpdateLMCounts -/

theorem ensureStates_ok {env : Env A σ} (hf : env.Fair) {h : Hub A σ} (hi : Inv h) (s : Int)
    (cs : List Int) : ∃ h', ensureStates env h s cs = .ok h' ∧ Good env h h' := by
  induction cs generalizing h s with
  | nil => exact ⟨h, rfl, Good.refl hi⟩
  | cons c cs ih =>
    obtain ⟨r, h', e, g⟩ := nextState_ok hf hi s c
    obtain ⟨h2, e2, g2⟩ := ih g.inv r
    exact ⟨h2, by simp only [ensureStates, e, ok_bind]; exact e2, g.trans g2⟩

theorem historyEach_ok {env : Env A σ} {h : Hub A σ} (hi : Inv h) (es : List (Int × Nat))
    (hes : ∀ e ∈ es, e.2 < h.states.length) :
    ∃ h', historyEach env h es = .ok h' ∧ Good env h h' ∧ Frame env h h' := by
  induction es generalizing h with
  | nil => exact ⟨h, rfl, Good.refl hi, Frame.refl _ _⟩
  | cons e es ih =>
    have hlt := hes e (by simp)
    have hb := bayes_eq (env := env) hi hlt
    have hfr := bayesed_frame env h e.2
    have g : Good env h (bayesed env h e.2) :=
      ⟨bayesed_inv hi _, hfr.const, fun P Q pr x => pr.hist h e.2 hi hlt x⟩
    obtain ⟨h2, e2, g2, f2⟩ := ih g.inv (fun e' he' => by rw [hfr.len]; exact hes e' (by simp [he']))
    exact ⟨h2, by simp only [historyEach, hb, ok_bind]; exact e2, g.trans g2, hfr.trans f2⟩

theorem historyLoop_good {env : Env A σ} (hf : env.Fair) {h h' : Hub A σ} (hi : Inv h) {s : Int}
    {cs : List Int} (he : historyLoop env h s cs = .ok h') : Good env h h' := by
  induction cs generalizing h s with
  | nil => simp only [historyLoop, Except.ok.injEq] at he; subst he; exact Good.refl hi
  | cons c cs ih =>
    simp only [historyLoop] at he
    split at he
    · cases he
    · split at he
      · cases he
      · next st hst =>
        obtain ⟨h1, e1, he⟩ := bind_ok.1 he
        obtain ⟨⟨r, h2⟩, e2, he⟩ := bind_ok.1 he
        have hx : ∀ e ∈ env.orderN st.nexts, e.2 < h.states.length := by
          intro e hm
          exact (hi.st _ st hst).target_lt ((hf.permN _).mem_iff.1 hm)
        obtain ⟨h1', e1', g1, _⟩ := historyEach_ok (env := env) hi _ hx
        rw [e1] at e1'; cases e1'
        have g2 := (nextState_good hf g1.inv e2).1
        exact (g1.trans g2).trans (ih g2.inv he)

theorem historyLoop_ok {env : Env A σ} (hf : env.Fair) {h : Hub A σ} (hi : Inv h) {s : Int}
    {cs : List Int} (h0 : 0 ≤ s) (h1 : s < h.states.length) (hcs : ∀ c ∈ cs, 0 ≤ c) :
    ∃ h', historyLoop env h s cs = .ok h' := by
  induction cs generalizing h s with
  | nil => exact ⟨h, rfl⟩
  | cons c cs ih =>
    have hlt : s.toNat < h.states.length := by omega
    obtain ⟨st, hst⟩ := exists_getElem?_of_lt hlt
    have hx : ∀ e ∈ env.orderN st.nexts, e.2 < h.states.length := by
      intro e hm
      exact (hi.st _ st hst).target_lt ((hf.permN _).mem_iff.1 hm)
    obtain ⟨h1', e1, g1, f1⟩ := historyEach_ok (env := env) hi _ hx
    obtain ⟨r, h2, e2, o2⟩ := nextState_out hf g1.inv s c
    obtain ⟨k, rfl, _, hk, _⟩ := o2.range hf g1.inv (hcs c (by simp))
    obtain ⟨h3, e3⟩ := ih (o2.good hf g1.inv).inv (s := (k : Int)) (by omega) (by omega)
      (fun c' hc' => hcs c' (by simp [hc']))
    refine ⟨h3, ?_⟩
    simp only [historyLoop]
    rw [if_neg (by omega)]
    simp only [hst, e1, ok_bind, e2]
    exact e3

theorem updateLoop_touches {env : Env A σ} {st : HubState A.C} {cs : List Int} {n : Int} :
    ∀ (i : Nat) (ws : List A.C) (ms : List σ) r ms',
    updateLoop env st cs n i ws ms = .ok (r, ms') → TouchesU env.toLMOps ms ms'
  | i, [], ms, r, ms', h => by
    simp only [updateLoop, Except.ok.injEq, Prod.mk.injEq] at h
    rw [← h.2]; exact TouchesU.refl _ _
  | i, w :: ws, [], r, ms', h => by simp [updateLoop] at h
  | i, w :: ws, m :: ms, r, ms', h => by
    simp only [updateLoop] at h
    have ht : TouchU env.toLMOps m (env.update m (st.modelState i) cs n).2 :=
      .update _ _ _ (.refl m)
    split at h
    · next m' he =>
      simp only [Except.ok.injEq, Prod.mk.injEq] at h
      rw [← h.2]
      rw [he] at ht
      exact .cons ht (TouchesU.refl _ _)
    · next m' he =>
      rw [he] at ht
      obtain ⟨rest, e2, h⟩ := bind_ok.1 h
      simp only [Except.ok.injEq, Prod.mk.injEq] at h
      rw [← h.2]
      exact .cons ht (updateLoop_touches _ _ _ rest.1 rest.2 e2)

theorem updateLoop_ok {env : Env A σ} {st : HubState A.C} {cs : List Int} {n : Int} :
    ∀ (i : Nat) (ws : List A.C) (ms : List σ), ws.length ≤ ms.length →
    ∃ r ms', updateLoop env st cs n i ws ms = .ok (r, ms')
  | i, [], ms, _ => ⟨true, ms, rfl⟩
  | i, w :: ws, [], h => by simp at h
  | i, w :: ws, m :: ms, h => by
    obtain ⟨r, ms', e⟩ := updateLoop_ok (i + 1) ws ms (by simpa using h)
      (env := env) (st := st) (cs := cs) (n := n)
    simp only [updateLoop]
    split
    · next m' he => exact ⟨_, _, rfl⟩
    · next m' he => rw [e]; exact ⟨_, _, rfl⟩

theorem set_self {l : List (HubState A.C)} {k : Nat} {st : HubState A.C} (h : l[k]? = some st) :
    l.set k st = l := by
  apply List.ext_getElem?
  intro i
  rw [List.getElem?_set]
  split
  · next e => subst e; rw [if_pos (lt_of_getElem?_eq_some h), h]
  · rfl

theorem verified_inv {env : Env A σ} {h : Hub A σ} (hi : Inv h) {st kst : HubState A.C} {c : Int}
    {k : Nat} (hk : h.states[k]? = some kst) : Inv (verified env h st c k kst) := by
  have ht := nextAll_touches env.toLMOps st c 0 h.models
  have hm : (nextAll env.toLMOps st c 0 h.models).2.length = h.models.length := ht.length_eq.symm
  refine hi.congr rfl rfl (by simp [verified]) hm ?_
  intro i st' hst'
  simp only [verified, List.getElem?_set] at hst'
  split at hst'
  · next e =>
    subst e
    simp only [lt_of_getElem?_eq_some hk, if_true, Option.some.injEq] at hst'
    subst hst'
    have ok := hi.st _ _ hk
    refine ⟨kst, hk, rfl, rfl, ok.prev_ge, ok.prev_lt, by simp [nextAll_length], ?_⟩
    unfold HistShape verified; simp only [hm]; exact ok.hist
  · have ok := hi.st _ _ hst'
    refine ⟨st', hst', rfl, rfl, ok.prev_ge, ok.prev_lt, ok.ms, ?_⟩
    unfold HistShape verified; simp only [hm]; exact ok.hist

theorem verifyLoop_ok {env : Env A σ} {h : Hub A σ} (hi : Inv h) {s : Nat}
    (hs : s < h.states.length) (cs : List Int) :
    ∃ r h', verifyLoop env h s cs = .ok (r, h') ∧ Good env h h' := by
  induction cs generalizing h s with
  | nil => exact ⟨true, h, rfl, Good.refl hi⟩
  | cons c cs ih =>
    obtain ⟨st, hst⟩ := exists_getElem?_of_lt hs
    simp only [verifyLoop, hst]
    cases hl : HubState.lookup st.nexts c with
    | none => exact ⟨true, h, rfl, Good.refl hi⟩
    | some k =>
      obtain ⟨_, _, _, kst, hk, _⟩ := (hi.st _ st hst).edges c k (lookup_mem hl)
      simp only [hk]
      have hkok := hi.st _ kst hk
      have hlen : (nextAll env.toLMOps st c 0 h.models).1.length = kst.modelStates.length := by
        rw [nextAll_length, hkok.ms]
      have ht := nextAll_touches env.toLMOps st c 0 h.models
      simp only [HubState.verifyOrCorrect]
      by_cases hc : kst.prev ≠ s ∨ kst.sym ≠ c
      · simp only [if_pos hc, ok_bind, Bool.false_eq_true, if_false]
        refine ⟨false, _, rfl, ?_⟩
        rw [set_self hk]
        exact Good.setModels hi ht.toU
      · have hpe : kst.prev = s ∧ kst.sym = c := by
          constructor
          · exact Classical.byContradiction fun e => hc (.inl e)
          · exact Classical.byContradiction fun e => hc (.inr e)
        rw [if_neg hc, if_pos (by omega)]
        simp only [ok_bind, if_true]
        have hd : (nextAll env.toLMOps st c 0 h.models).1 ++
            kst.modelStates.drop (nextAll env.toLMOps st c 0 h.models).1.length =
            (nextAll env.toLMOps st c 0 h.models).1 := by
          rw [hlen, List.drop_length]; simp
        rw [hd]
        have hvi := verified_inv (env := env) (st := st) (c := c) hi hk
        have g : Good env h (verified env h st c k kst) :=
          ⟨hvi, ⟨rfl, rfl, rfl, id, by simp [verified], ht.toU⟩,
            fun P Q pr x => pr.verify h s k st kst c hi x hst hl hk hpe.1 hpe.2⟩
        obtain ⟨r, h', e, g'⟩ := ih hvi (s := k) (by
          simp only [verified, List.length_set]; exact lt_of_getElem?_eq_some hk)
        exact ⟨r, h', e, g.trans g'⟩

theorem update_good {env : Env A σ} (hf : env.Fair) {h h' : Hub A σ} (hi : Inv h) {s : Int}
    {cs : List Int} {n : Int} {r : Bool} (he : updateLMCounts env h s cs n = .ok (r, h')) :
    Good env h h' := by
  simp only [updateLMCounts] at he
  obtain ⟨h1, e1, he⟩ := bind_ok.1 he
  obtain ⟨h1', e1', g1⟩ := ensureStates_ok hf hi s cs
  rw [e1] at e1'; cases e1'
  obtain ⟨h2, e2, he⟩ := bind_ok.1 he
  have g2 : Good env h1 h2 := by
    split at e2
    · exact historyLoop_good hf g1.inv e2
    · cases e2; exact Good.refl g1.inv
  have g := g1.trans g2
  split at he
  · split at he
    · cases he
    · next st hst =>
      obtain ⟨⟨b, ms⟩, e3, he⟩ := bind_ok.1 he
      have g3 : Good env h2 { h2 with models := ms } :=
        Good.setModels g2.inv (updateLoop_touches _ _ _ _ _ e3)
      split at he
      · obtain ⟨r', h'', e4, g4⟩ := verifyLoop_ok (env := env) g3.inv
          (lt_of_getElem?_eq_some (l := h2.states) hst) cs
        rw [he] at e4; cases e4
        exact g.trans (g3.trans g4)
      · cases he; exact g.trans g3
  · cases he; exact g

/-- `UpdateLMCounts` does not fault when no Bayesian history is kept, or when it is given an
existing state and non-negative symbols. -/
theorem update_ok {env : Env A σ} (hf : env.Fair) {h : Hub A σ} (hi : Inv h)
    (hw : h.weights.length ≤ h.models.length) {s : Int} {cs : List Int} {n : Int}
    (hsafe : h.hlen = 0 ∨ cs = [] ∨ (h.valid s = true ∧ ∀ c ∈ cs, 0 ≤ c)) :
    ∃ r h', updateLMCounts env h s cs n = .ok (r, h') := by
  obtain ⟨h1, e1, g1⟩ := ensureStates_ok hf hi s cs
  have hx : ∃ h2, (if 0 < h1.hlen then historyLoop env h1 s cs else .ok h1) = .ok h2 := by
    by_cases hp : 0 < h1.hlen
    · rw [if_pos hp]
      rcases hsafe with h0 | h0 | h0
      · have := g1.const.hlen; omega
      · subst h0; exact ⟨h1, rfl⟩
      · have hv := h0.1
        unfold Hub.valid at hv
        simp only [Bool.and_eq_true, decide_eq_true_eq] at hv
        have := g1.const.len
        exact historyLoop_ok hf g1.inv hv.1 (by omega) h0.2
    · rw [if_neg hp]; exact ⟨h1, rfl⟩
  obtain ⟨h2, e2⟩ := hx
  have g2 : Good env h1 h2 := by
    split at e2
    · exact historyLoop_good hf g1.inv e2
    · cases e2; exact Good.refl g1.inv
  have g := g1.trans g2
  simp only [updateLMCounts, e1, ok_bind, e2]
  split
  · next hv =>
    unfold Hub.valid at hv
    simp only [Bool.and_eq_true, decide_eq_true_eq] at hv
    have hlt : s.toNat < h2.states.length := by have := g.const.len; omega
    obtain ⟨st, hst⟩ := exists_getElem?_of_lt hlt
    simp only [hst]
    obtain ⟨b, ms, e3⟩ := updateLoop_ok (env := env) (st := st) (cs := cs) (n := n) 0 h2.weights
      h2.models (by rw [g.const.weights, ← g.const.models.length_eq]; exact hw)
    simp only [e3, ok_bind]
    split
    · have g3 : Good env h2 { h2 with models := ms } :=
        Good.setModels g2.inv (updateLoop_touches _ _ _ _ _ e3)
      obtain ⟨r', h'', e4, _⟩ := verifyLoop_ok (env := env) g3.inv hlt cs
      exact ⟨r', h'', e4⟩
    · exact ⟨_, _, rfl⟩
  · exact ⟨_, _, rfl⟩

/-! ## Extraction does not fault -/

theorem mixLoop_ok (w : A.C) : ∀ (ps : List A.D) (ks : List Str) (acc : List (Str × A.C)),
    ps.length ≤ ks.length → ∃ r, mixLoop A w ps ks acc = .ok r
  | [], _, acc, _ => ⟨acc, rfl⟩
  | p :: ps, [], acc, h => by simp at h
  | p :: ps, k :: ks, acc, h => mixLoop_ok w ps ks _ (by simpa using h)

/-- A component returns as many symbols as probabilities. -/
def Env.ScoresOK (env : Env A σ) : Prop :=
  ∀ m s r, (env.extract m s).1 = some r → r.probs.length = r.symbols.length

theorem extractLoop_ok {env : Env A σ} (hs : env.ScoresOK) {st : HubState A.C} :
    ∀ (i : Nat) (ws : List A.C) (ms : List σ) (acc : List (Str × A.C)) (norm : A.D),
    ws.length ≤ ms.length → ∃ r, extractLoop env st i ws ms acc norm = .ok r
  | i, [], ms, acc, norm, _ => ⟨_, rfl⟩
  | i, w :: ws, [], acc, norm, h => by simp at h
  | i, w :: ws, m :: ms, acc, norm, h => by
    simp only [extractLoop]
    split
    · exact ⟨_, rfl⟩
    · next x m' he =>
      have hx := hs m (st.modelState i) x (by rw [he])
      obtain ⟨mr, e1⟩ := mixLoop_ok (A := A) w x.probs x.symbols acc (by omega)
      simp only [mixResults, e1, ok_bind]
      obtain ⟨r, e2⟩ := extractLoop_ok hs (st := st) (i + 1) ws ms mr
        (A.dadd norm (A.dmul x.norm (A.prob w))) (by simpa using h)
      rw [e2]
      exact ⟨_, rfl⟩

theorem normalizeWeights_length (ws : List A.C) : (normalizeWeights A ws).length = ws.length := by
  cases ws <;> simp [normalizeWeights]

theorem extract_ok {env : Env A σ} (hsc : env.ScoresOK) {h : Hub A σ} (hi : Inv h)
    (hw : h.weights.length ≤ h.models.length) (hm : 0 < h.models.length) (s : Int) :
    ∃ r h', extractLMScores env h s = .ok (r, h') := by
  simp only [extractLMScores]
  split
  · exact ⟨_, _, rfl⟩
  · next hv =>
    simp only [Bool.not_eq_true', Bool.not_eq_false] at hv
    have hv' := hv
    unfold Hub.valid at hv'
    simp only [Bool.and_eq_true, decide_eq_true_eq] at hv'
    have hlt : s.toNat < h.states.length := by omega
    obtain ⟨st, hst⟩ := exists_getElem?_of_lt hlt
    simp only [hst]
    split
    · split
      · next he => rw [he] at hm; simp at hm
      · exact ⟨_, _, rfl⟩
    · have hx : ∃ ws, getMixtureWeights h s true = .ok ws ∧ ws.length ≤ h.models.length := by
        unfold getMixtureWeights
        split
        · exact ⟨_, rfl, hw⟩
        · next hc =>
          simp only [hst]
          have hl : 0 < h.hlen := by
            simp only [Bool.not_true, Bool.false_or, Bool.or_eq_true, beq_iff_eq,
              Bool.not_eq_true'] at hc
            rcases Nat.eq_zero_or_pos h.hlen with e | e
            · exact absurd (Or.inl e) hc
            · exact e
          have hh := (hi.st _ st hst).hist hl
          unfold bayesianWeights
          rw [if_pos (by omega)]
          refine ⟨_, rfl, ?_⟩
          rw [normalizeWeights_length]
          simp only [List.length_zipWith]
          omega
      obtain ⟨ws, e1, hws⟩ := hx
      obtain ⟨r, e2⟩ := extractLoop_ok hsc (st := st) 0 ws h.models [] (A.ofInt 0) hws
      rw [e1]
      simp only [ok_bind, e2]
      split
      · exact ⟨_, _, rfl⟩
      · exact ⟨_, _, rfl⟩

/-! ## All calls -/

theorem step_good {env : Env A σ} (hf : env.Fair) {h h' : Hub A σ} (hi : Inv h) {c : Call}
    (he : step env h c = .ok h') : Good env h h' := by
  cases c with
  | next s c =>
    simp only [step] at he
    obtain ⟨⟨r, h1⟩, e, he⟩ := bind_ok.1 he
    cases he; exact (nextState_good hf hi e).1
  | context cs s =>
    simp only [step, contextState] at he
    obtain ⟨⟨r, h1⟩, e, he⟩ := bind_ok.1 he
    cases he
    obtain ⟨r', h1', e', g, _⟩ := contextLoop_ok hf hi (if s < 0 then 0 else s) cs
    rw [e] at e'; cases e'; exact g
  | extract s =>
    simp only [step] at he
    obtain ⟨⟨r, h1⟩, e, he⟩ := bind_ok.1 he
    cases he; exact extract_good hi e
  | update s cs n =>
    simp only [step] at he
    obtain ⟨⟨r, h1⟩, e, he⟩ := bind_ok.1 he
    cases he; exact update_good hf hi e

theorem run_good {env : Env A σ} (hf : env.Fair) {h h' : Hub A σ} (hi : Inv h) {cs : List Call}
    (he : run env h cs = .ok h') : Good env h h' := by
  induction cs generalizing h with
  | nil => simp only [run, Except.ok.injEq] at he; subst he; exact Good.refl hi
  | cons c cs ih =>
    simp only [run] at he
    obtain ⟨h1, e, he⟩ := bind_ok.1 he
    have g := step_good hf hi e
    exact g.trans (ih g.inv he)

/-! ## Initialisation -/

/-- The hub right after a successful `InitializeModels`. -/
def initial (env : Env A σ) (models : List σ) (ws : List A.C) (hlen max : Nat) : Hub A σ :=
  { states := [HubState.mk' A (models.map env.start) (-1) 0 hlen], last := 0, max, weights := ws,
    hlen, models, selfRecycled := false }

/-- The maximum number of states a configuration asks for. -/
def cfgMax (cfg : HubConfig A.C) : Nat := if cfg.maxStates < 10 then 10000 else cfg.maxStates.toNat

/-- The mixture weights a configuration asks for. -/
def cfgWeights (cfg : HubConfig A.C) : List A.C :=
  if cfg.mixture = .interpolation ∧ 2 ≤ cfg.weights.length then normalizeWeights A cfg.weights
  else [A.one]

/-- The Bayesian history length a configuration asks for. -/
def cfgHlen (cfg : HubConfig A.C) : Nat :=
  if cfg.mixture = .interpolation ∧ 2 ≤ cfg.weights.length then cfg.bayesianHistoryLength.toNat
  else 0

theorem initialize_eq {env : Env A σ} (hf : env.Fair) (models : List σ) (cfg : HubConfig A.C) :
    initializeModels env models cfg =
      if cfg.mixture = .unknown then .ok none
      else .ok (some (initial env models (cfgWeights cfg) (cfgHlen cfg) (cfgMax cfg))) := by
  have key : ∀ (ws : List A.C) (hl : Nat),
      initializeStart env { states := [HubState.mk' A (models.map fun _ => 0) (-1) 0 hl]
                            last := 0, max := 0, weights := ws, hlen := hl, models := models
                            selfRecycled := false } =
      .ok (some { states := [HubState.mk' A (models.map env.start) (-1) 0 hl], last := 0, max := 0
                  weights := ws, hlen := hl, models := models, selfRecycled := false }) := by
    intro ws hl
    unfold initializeStart
    rw [updateHubState_eq hf (idx := 0) (ms := models.map env.start) (p := -1) (c := 0)
      (st := HubState.mk' A (models.map fun _ => 0) (-1) 0 hl) rfl (by simp [HubState.mk'])
      (by intro c k hk; simp [HubState.mk'] at hk)]
    simp only [clearAt, List.getElem?_cons_zero, mk'_nexts]
    have h0 : env.orderN [] = [] := List.Perm.eq_nil (hf.permN [])
    rw [h0]
    simp only [resetAt, List.map_nil, List.set_cons_zero]
    rfl
  unfold initializeModels
  cases hm : cfg.mixture with
  | none =>
    simp only [key, ok_bind]
    simp [cfgWeights, cfgHlen, cfgMax, initial, hm]
  | unknown => simp
  | interpolation =>
    by_cases hl : cfg.weights.length < 2
    · simp only [if_pos hl, key, ok_bind]
      have : ¬ 2 ≤ cfg.weights.length := by omega
      simp [cfgWeights, cfgHlen, cfgMax, initial, hm, this]
    · simp only [if_neg hl, key, ok_bind]
      have : 2 ≤ cfg.weights.length := by omega
      simp [cfgWeights, cfgHlen, cfgMax, initial, hm, this]

theorem initial_inv (env : Env A σ) (models : List σ) (ws : List A.C) (hlen : Nat) {max : Nat}
    (hmax : 10 ≤ max) : Inv (initial env models ws hlen max) := by
  refine ⟨hmax, ?_, by simp [initial], by simp [initial], ?_⟩
  · simp only [initial, List.length_singleton]; omega
  · intro i st hst
    cases i with
    | succ i => simp [initial] at hst
    | zero =>
      simp only [initial, List.getElem?_cons_zero, Option.some.injEq] at hst
      subst hst
      refine ⟨by simp [initial, HubState.mk'], by simp [HubState.mk'], by simp [initial, HubState.mk'],
        ?_, ?_⟩
      · exact mk'_hist (h := initial env models ws hlen max) (by simp [initial]) _ _
      · intro c k hk; simp [HubState.mk'] at hk

theorem cfgMax_ge (cfg : HubConfig A.C) : 10 ≤ cfgMax cfg := by
  unfold cfgMax; split <;> omega

end Mozolm.Hub
