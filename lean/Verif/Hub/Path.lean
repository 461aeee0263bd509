import Verif.Hub.Effects

/-! # Hub: cached paths, and walks while the table still has room -/

namespace Mozolm.Hub
variable {A : Arith} {σ : Type} {env : Env A σ}

/-- In how many creations from now slot `i ≥ 1` is overwritten (for slot 0: how many creations are left
before the table wraps around). -/
def Hub.turnsLeft (h : Hub A σ) (i : Nat) : Nat :=
  if h.last < i then i - h.last else h.max - 1 - h.last + i

/-- the cached transitions lead from slot `s` to slot `t` by the symbols -/
def IsPath (h : Hub A σ) : Nat → List Int → Nat → Prop
  | s, [], t => s = t
  | s, c :: cs, t => ∃ st k, h.states[s]? = some st ∧ HubState.lookup st.nexts c = some k ∧
      IsPath h k cs t

/-- everything in `h` is still in `h'` (states may have gained transitions and history) -/
def Keep (h h' : Hub A σ) : Prop :=
  ∀ (i : Nat) (st : HubState A.C), h.states[i]? = some st → ∃ st' : HubState A.C,
    h'.states[i]? = some st' ∧ st'.modelStates = st.modelStates ∧ st'.prev = st.prev ∧
    st'.sym = st.sym ∧
    ∀ c k, HubState.lookup st.nexts c = some k → HubState.lookup st'.nexts c = some k

theorem Keep.refl (h : Hub A σ) : Keep h h := fun _ st e => ⟨st, e, rfl, rfl, rfl, fun _ _ x => x⟩

theorem Keep.trans {a b c : Hub A σ} (h : Keep a b) (h' : Keep b c) : Keep a c := by
  intro i st e
  obtain ⟨s1, e1, e2, e3, e4, e5⟩ := h i st e
  obtain ⟨s2, f1, f2, f3, f4, f5⟩ := h' i s1 e1
  exact ⟨s2, f1, f2.trans e2, f3.trans e3, f4.trans e4, fun c k x => f5 c k (e5 c k x)⟩

theorem Frame.keep {h h' : Hub A σ} (f : Frame env h h') : Keep h h' := by
  intro i st e
  obtain ⟨s1, e1, e2, e3, e4, e5⟩ := f.symm_st e
  exact ⟨s1, e1, e5, e4, e3, fun c k x => by rw [e2]; exact x⟩

theorem IsPath.keep {h h' : Hub A σ} (hk : Keep h h') {s t : Nat} {cs : List Int}
    (hp : IsPath h s cs t) : IsPath h' s cs t := by
  induction cs generalizing s with
  | nil => exact hp
  | cons c cs ih =>
    obtain ⟨st, k, e1, e2, e3⟩ := hp
    obtain ⟨st', f1, _, _, _, f5⟩ := hk s st e1
    exact ⟨st', k, f1, f5 _ _ e2, ih e3⟩

theorem victim_room {h : Hub A σ} (hr : h.states.length < h.max) : victim h = h.states.length := by
  unfold victim; rw [if_pos hr]

/-- While there is room a call of `NextState` keeps everything and adds at most one state. -/
theorem NextOut.keep (hf : env.Fair) {h h' : Hub A σ} (hi : Inv h) {s c r : Int}
    (ho : NextOut env h s c r h') (hr : h.states.length < h.max) :
    Keep h h' ∧ h'.states.length ≤ h.states.length + 1 ∧ h'.selfRecycled = h.selfRecycled ∧
      h'.last + 1 = h'.states.length := by
  cases ho with
  | bad => exact ⟨Keep.refl _, by omega, rfl, hi.grow hr⟩
  | cached => exact ⟨Keep.refl _, by omega, rfl, hi.grow hr⟩
  | new hc st hst hk =>
    have ht := nextAll_touches env.toLMOps st c 0 h.models
    have hi' := hi.setModels ht.length_eq.symm
    have hfr := bayesed_frame env (createdFrom env h (source h s) st c) (victim h)
    refine ⟨Keep.trans ?_ hfr.keep, ?_, ?_, ?_⟩
    · intro i ist hist
      have hlt := lt_of_getElem?_eq_some hist
      have hv := victim_room hr
      have hne : i ≠ victim { h with models := (nextAll env.toLMOps st c 0 h.models).2 } := by
        show i ≠ victim h
        omega
      obtain ⟨st', e1, e2, e3, _, _, _, e7, e8⟩ := created_other (env := env)
        (ms := (nextAll env.toLMOps st c 0 h.models).1) hf hi' hst hk hne hist
      have hkept : kept env { h with models := (nextAll env.toLMOps st c 0 h.models).2 } i ist
          = ist := by
        unfold kept
        rw [if_neg]
        rintro ⟨_, hw⟩
        have : h.max ≤ h.states.length := hw.1
        omega
      rw [hkept] at e2 e3 e7 e8
      have hnd : ¬ Detached { h with models := (nextAll env.toLMOps st c 0 h.models).2 } i := by
        intro hd
        have : h.max ≤ h.states.length := hd.1
        omega
      refine ⟨st', e1, e3, e7 hnd, e2, fun c' k' x => ?_⟩
      rw [e8]
      exact lookup_append_of_some x
    · rw [hfr.len]
      unfold createdFrom
      rw [created_length]
      show (if h.states.length < h.max then h.states.length + 1 else h.states.length) ≤ _
      split <;> omega
    · rw [hfr.ghost]
      have := victim_room hr
      have h2 := lt_of_getElem?_eq_some hst
      show (h.selfRecycled || victim h == source h s) = _
      have : (victim h == source h s) = false := by
        rw [beq_eq_false_iff_ne]; omega
      simp [this]
    · rw [hfr.len, hfr.last]
      unfold createdFrom
      rw [created_length]
      have := victim_room hr
      show victim h + 1 = if h.states.length < h.max then h.states.length + 1 else h.states.length
      rw [if_pos hr]; omega

/-- `NextState` along a cached transition. -/
theorem nextState_cached {h : Hub A σ} {s : Nat} {c : Int} {st : HubState A.C} {k : Nat}
    (hst : h.states[s]? = some st) (hk : HubState.lookup st.nexts c = some k) :
    nextState env h s c = .ok ((k : Int), h) := by
  have hlt := lt_of_getElem?_eq_some hst
  have hv : h.valid (s : Int) = true := by
    simp only [Hub.valid, Bool.and_eq_true, decide_eq_true_eq]; omega
  simp only [nextState, hv, if_true, Int.toNat_natCast, hst, HubState.nextState, hk]
  rw [if_pos (Or.inr (by omega))]

theorem ensureStates_path {h : Hub A σ} {s t : Nat} {cs : List Int} (hp : IsPath h s cs t) :
    ensureStates env h s cs = .ok h := by
  induction cs generalizing s with
  | nil => rfl
  | cons c cs ih =>
    obtain ⟨st, k, e1, e2, e3⟩ := hp
    simp only [ensureStates, nextState_cached e1 e2, ok_bind]
    exact ih e3

theorem contextLoop_path {h : Hub A σ} {s t : Nat} {cs : List Int} (hp : IsPath h s cs t) :
    contextLoop env h s cs = .ok ((t : Int), h) := by
  induction cs generalizing s with
  | nil => cases hp; rfl
  | cons c cs ih =>
    obtain ⟨st, k, e1, e2, e3⟩ := hp
    simp only [contextLoop, nextState_cached e1 e2, ok_bind]
    rw [if_neg (by omega)]
    exact ih e3

/-- `ContextState` while there is room: the result is reached by cached transitions. -/
theorem contextLoop_room (hf : env.Fair) {h : Hub A σ} (hi : Inv h) {s : Nat}
    (hs : s < h.states.length) {cs : List Int} (hcs : ∀ c ∈ cs, 0 ≤ c)
    (hr : h.states.length + cs.length ≤ h.max) :
    ∃ (t : Nat) (h' : Hub A σ), contextLoop env h s cs = .ok ((t : Int), h') ∧ Good env h h' ∧
      Keep h h' ∧ IsPath h' s cs t ∧ t < h'.states.length ∧ h'.selfRecycled = h.selfRecycled ∧
      Touches env.toLMOps h.models h'.models ∧ (cs ≠ [] → h'.last + 1 = h'.states.length) := by
  induction cs generalizing h s with
  | nil =>
    exact ⟨s, h, rfl, Good.refl hi, Keep.refl _, rfl, hs, rfl, Touches.refl _ _,
      fun h => absurd rfl h⟩
  | cons c cs ih =>
    have hc := hcs c (by simp)
    simp only [List.length_cons] at hr
    obtain ⟨r, h1, e, o⟩ := nextState_out hf hi s c
    obtain ⟨k1, l1, gh1, la1⟩ := o.keep hf hi (by omega)
    have g1 := o.good hf hi
    obtain ⟨k, rfl, _, hk, _, sst, s1, s2⟩ := o.range hf hi hc
    have hsrc : source h (s : Int) = s := by
      have := source_valid (h := h) (s := (s : Int)) (by omega) (by omega); omega
    rw [hsrc] at s1
    obtain ⟨t, h2, e2, g2, kk2, p2, t2, gh2, to2, la2⟩ := ih g1.inv hk (fun c' h' => hcs c' (by simp [h']))
      (by have := g1.const.max; omega)
    refine ⟨t, h2, ?_, g1.trans g2, k1.trans kk2, ?_, t2, gh2.trans gh1, o.touches.trans to2, ?_⟩
    · simp only [contextLoop, e, ok_bind]
      rw [if_neg (by omega)]
      exact e2
    · obtain ⟨st', f1, _, _, _, f5⟩ := kk2 s sst s1
      exact ⟨st', k, f1, f5 _ _ s2, p2⟩
    · intro _
      by_cases hn : cs = []
      · subst hn
        simp only [contextLoop, Except.ok.injEq, Prod.mk.injEq] at e2
        rw [← e2.2]; exact la1
      · exact la2 hn

theorem historyLoop_path (hf : env.Fair) {h : Hub A σ} (hi : Inv h) {s t : Nat} {cs : List Int}
    (hp : IsPath h s cs t) : ∃ h', historyLoop env h s cs = .ok h' ∧ Frame env h h' ∧
      Good env h h' := by
  induction cs generalizing h s with
  | nil => exact ⟨h, rfl, Frame.refl _ _, Good.refl hi⟩
  | cons c cs ih =>
    obtain ⟨st, k, e1, e2, e3⟩ := hp
    have hx : ∀ e ∈ env.orderN st.nexts, e.2 < h.states.length := by
      intro e hm
      exact (hi.st _ st e1).target_lt ((hf.permN _).mem_iff.1 hm)
    obtain ⟨h1, a1, g1, f1⟩ := historyEach_ok (env := env) hi _ hx
    obtain ⟨st', b1, b2, _⟩ := f1.symm_st e1
    have hn : nextState env h1 s c = .ok ((k : Int), h1) :=
      nextState_cached b1 (by rw [b2]; exact e2)
    obtain ⟨h2, a2, f2, g2⟩ := ih g1.inv (IsPath.keep f1.keep e3)
    refine ⟨h2, ?_, f1.trans f2, g1.trans g2⟩
    simp only [historyLoop]
    rw [if_neg (by omega)]
    simp only [Int.toNat_natCast, e1, a1, ok_bind, hn]
    exact a2

/-- The verification never fails on a table whose cached transitions agree with the recorded
predecessors. -/
theorem verifyLoop_true {h : Hub A σ} (hi : Inv h) (hl : Linked h) (hg : h.selfRecycled = false)
    {s : Nat} (hs : s < h.states.length) (cs : List Int) :
    ∃ h', verifyLoop env h s cs = .ok (true, h') := by
  induction cs generalizing h s with
  | nil => exact ⟨h, rfl⟩
  | cons c cs ih =>
    obtain ⟨st, hst⟩ := exists_getElem?_of_lt hs
    simp only [verifyLoop, hst]
    cases hlk : HubState.lookup st.nexts c with
    | none => exact ⟨h, rfl⟩
    | some k =>
      obtain ⟨_, _, _, kst, hk, hsym⟩ := (hi.st _ st hst).edges c k (lookup_mem hlk)
      obtain ⟨hks, kst', hk', hprev⟩ := hl hg s st hst c k (lookup_mem hlk)
      rw [hk] at hk'; cases hk'
      have hkok := hi.st _ kst hk
      have hlen : (nextAll env.toLMOps st c 0 h.models).1.length = kst.modelStates.length := by
        rw [nextAll_length, hkok.ms]
      simp only [hk, HubState.verifyOrCorrect]
      rw [if_neg (by simp [hprev, hsym]), if_pos (by omega)]
      simp only [ok_bind, if_true]
      have hd : (nextAll env.toLMOps st c 0 h.models).1 ++
          kst.modelStates.drop (nextAll env.toLMOps st c 0 h.models).1.length =
          (nextAll env.toLMOps st c 0 h.models).1 := by
        rw [hlen, List.drop_length]; simp
      rw [hd]
      have hvi := verified_inv (env := env) (st := st) (c := c) hi hk
      refine ih (h := verified env h st c k kst) hvi ?_ hg ?_
      · intro _ i ist hist c' k' hck
        simp only [verified, List.getElem?_set] at hist ⊢
        have hnx : ∃ ist0 : HubState A.C, h.states[i]? = some ist0 ∧ ist0.nexts = ist.nexts := by
          split at hist
          · next e =>
            subst e
            rw [if_pos (lt_of_getElem?_eq_some hk)] at hist
            cases hist
            exact ⟨kst, hk, rfl⟩
          · exact ⟨ist, hist, rfl⟩
        obtain ⟨ist0, i1, i2⟩ := hnx
        rw [← i2] at hck
        obtain ⟨a, kst1, b1, b2⟩ := hl hg i ist0 i1 c' k' hck
        refine ⟨a, ?_⟩
        by_cases e : k = k'
        · subst e
          rw [if_pos rfl, if_pos (lt_of_getElem?_eq_some hk)]
          rw [hk] at b1; cases b1
          exact ⟨_, rfl, b2⟩
        · rw [if_neg e]; exact ⟨kst1, b1, b2⟩
      · simp only [verified, List.length_set]; exact lt_of_getElem?_eq_some hk

/-- The count updates of the components, one by one. -/
theorem updateLoop_each {st : HubState A.C} {cs : List Int} {n : Int} :
    ∀ (i : Nat) (ws : List A.C) (ms ms' : List σ),
    updateLoop env st cs n i ws ms = .ok (true, ms') →
    (∀ (j : Nat) (m : σ), j < ws.length → ms[j]? = some m →
      ∃ m', env.update m (st.modelState (i + j)) cs n = (true, m') ∧ ms'[j]? = some m') ∧
    (∀ (j : Nat), ws.length ≤ j → ms'[j]? = ms[j]?)
  | i, [], ms, ms', h => by
    simp only [updateLoop, Except.ok.injEq, Prod.mk.injEq, true_and] at h
    subst h
    exact ⟨fun j m hj => absurd hj (by simp), fun _ _ => rfl⟩
  | i, w :: ws, [], ms', h => by simp [updateLoop] at h
  | i, w :: ws, m :: ms, ms', h => by
    simp only [updateLoop] at h
    split at h
    · simp at h
    · next m' hu =>
      obtain ⟨⟨b, ms2⟩, e2, e3⟩ := bind_ok.1 h
      simp only [Except.ok.injEq, Prod.mk.injEq] at e3
      obtain ⟨rfl, rfl⟩ := e3
      obtain ⟨ih1, ih2⟩ := updateLoop_each (i + 1) ws ms ms2 e2
      constructor
      · intro j mj hj hm
        cases j with
        | zero =>
          simp only [List.getElem?_cons_zero, Option.some.injEq] at hm
          subst hm
          exact ⟨m', hu, rfl⟩
        | succ j =>
          simp only [List.getElem?_cons_succ] at hm ⊢
          obtain ⟨m2, a, b⟩ := ih1 j mj (by simpa using hj) hm
          exact ⟨m2, by rw [← a]; congr 2; omega, b⟩
      · intro j hj
        cases j with
        | zero => simp at hj
        | succ j =>
          simp only [List.getElem?_cons_succ]
          exact ih2 j (by simpa using hj)

/-- The update of every component succeeds when each component accepts every update. -/
theorem updateLoop_true (hu : ∀ m s cs n, (env.update m s cs n).1 = true) {st : HubState A.C}
    {cs : List Int} {n : Int} :
    ∀ (i : Nat) (ws : List A.C) (ms : List σ) (b : Bool) (ms' : List σ),
    updateLoop env st cs n i ws ms = .ok (b, ms') → b = true
  | i, [], ms, b, ms', h => by
    simp only [updateLoop, Except.ok.injEq, Prod.mk.injEq] at h
    exact h.1.symm
  | i, w :: ws, [], b, ms', h => by simp [updateLoop] at h
  | i, w :: ws, m :: ms, b, ms', h => by
    simp only [updateLoop] at h
    split at h
    · next m' e => have := hu m (st.modelState i) cs n; rw [e] at this; cases this
    · obtain ⟨⟨b2, ms2⟩, e2, e3⟩ := bind_ok.1 h
      simp only [Except.ok.injEq, Prod.mk.injEq] at e3
      obtain ⟨rfl, _⟩ := e3
      exact updateLoop_true hu _ _ _ _ _ e2

theorem nextAll_fst (ops : LMOps A σ) (st : HubState A.C) (c : Int) (i : Nat) (ms : List σ)
    {j : Nat} {m : σ} (h : ms[j]? = some m) :
    (nextAll ops st c i ms).1[j]? = some (ops.next m (st.modelState (i + j)) c).1 := by
  induction ms generalizing i j with
  | nil => simp at h
  | cons a ms ih =>
    cases j with
    | zero =>
      simp only [List.getElem?_cons_zero, Option.some.injEq] at h
      subst h
      simp [nextAll]
    | succ j =>
      simp only [nextAll, List.getElem?_cons_succ] at h ⊢
      rw [ih (i + 1) h]
      have e : i + 1 + j = i + (j + 1) := by omega
      rw [e]

theorem Pointwise.get {α β : Type} {R : α → β → Prop} {l : List α} {l' : List β}
    (h : Pointwise R l l') {j : Nat} {a : α} (ha : l[j]? = some a) :
    ∃ b, l'[j]? = some b ∧ R a b := by
  induction h generalizing j with
  | nil => simp at ha
  | cons r _ ih =>
    cases j with
    | zero =>
      simp only [List.getElem?_cons_zero, Option.some.injEq] at ha ⊢
      subst ha; exact ⟨_, rfl, r⟩
    | succ j => simp only [List.getElem?_cons_succ] at ha ⊢; exact ih ha

/-- Components whose transitions are a function `view` of their content that queries do not change
(updates may). -/
structure LMOps.Viewed (ops : LMOps A σ) (view : σ → Int → Int → Int) : Prop where
  next_eq : ∀ m s c, (ops.next m s c).1 = view m s c
  inv : ops.QueryInvariant view

/-- `VerifyOrCorrectModelStates` along a cached path: afterwards the state at the end of the path
holds, for each component, the state that component's transitions lead to now. -/
theorem verifyLoop_path {view : σ → Int → Int → Int} (hv : env.toLMOps.Viewed view)
    {h : Hub A σ} (hi : Inv h) (hl : Linked h) (hg : h.selfRecycled = false)
    {s t : Nat} {st : HubState A.C}
    (hst : h.states[s]? = some st) {cs : List Int} (hp : IsPath h s cs t) :
    ∃ h' tst, verifyLoop env h s cs = .ok (true, h') ∧ Good env h h' ∧
      (∀ i, i < h.states.length → h.turnsLeft i ≤ h.turnsLeft s → h'.states[i]? = h.states[i]?) ∧
      IsPath h' s cs t ∧
      Touches env.toLMOps h.models h'.models ∧ h'.states[t]? = some tst ∧
      ∀ (j : Nat) (m : σ), h.models[j]? = some m →
        tst.modelState j = pathState (view m) (st.modelState j) cs := by
  induction cs generalizing h s st with
  | nil =>
    cases hp
    exact ⟨h, st, rfl, Good.refl hi, fun _ _ _ => rfl, rfl, Touches.refl _ _, hst, fun _ _ _ => rfl⟩
  | cons c cs ih =>
    obtain ⟨st', k, e1, e2, e3⟩ := hp
    rw [hst] at e1; cases e1
    obtain ⟨_, _, hold, kst, hk, hsym⟩ := (hi.st _ st hst).edges c k (lookup_mem e2)
    obtain ⟨hks, kst', hk', hprev⟩ := hl hg s st hst c k (lookup_mem e2)
    rw [hk] at hk'; cases hk'
    have hsk : h.turnsLeft s < h.turnsLeft k := by
      have := lt_of_getElem?_eq_some hk
      have := lt_of_getElem?_eq_some hst
      have := hi.le
      have := hi.last_lt
      unfold Older at hold
      unfold Hub.turnsLeft
      split <;> split <;> omega
    have hkok := hi.st _ kst hk
    have hlen : (nextAll env.toLMOps st c 0 h.models).1.length = kst.modelStates.length := by
      rw [nextAll_length, hkok.ms]
    have hd : (nextAll env.toLMOps st c 0 h.models).1 ++
        kst.modelStates.drop (nextAll env.toLMOps st c 0 h.models).1.length =
        (nextAll env.toLMOps st c 0 h.models).1 := by
      rw [hlen, List.drop_length]; simp
    have ht := nextAll_touches env.toLMOps st c 0 h.models
    have hvi := verified_inv (env := env) (st := st) (c := c) hi hk
    have hnx : ∀ (i : Nat) (ist : HubState A.C), h.states[i]? = some ist → ∃ ist1 : HubState A.C,
        (verified env h st c k kst).states[i]? = some ist1 ∧ ist1.nexts = ist.nexts ∧
        ist1.prev = ist.prev := by
      intro i ist hist
      simp only [verified, List.getElem?_set]
      by_cases e : k = i
      · subst e
        rw [hk] at hist; cases hist
        rw [if_pos rfl, if_pos (lt_of_getElem?_eq_some hk)]
        exact ⟨_, rfl, rfl, rfl⟩
      · rw [if_neg e]; exact ⟨ist, hist, rfl, rfl⟩
    have hnx' : ∀ (i : Nat) (ist1 : HubState A.C),
        (verified env h st c k kst).states[i]? = some ist1 → ∃ ist : HubState A.C,
        h.states[i]? = some ist ∧ ist1.nexts = ist.nexts ∧ ist1.prev = ist.prev := by
      intro i ist1 h1
      have : i < h.states.length := by
        have := lt_of_getElem?_eq_some h1; simpa [verified] using this
      obtain ⟨ist, h2⟩ := exists_getElem?_of_lt this
      obtain ⟨ist2, h3, h4, h5⟩ := hnx i ist h2
      rw [h1] at h3; cases h3
      exact ⟨ist, h2, h4, h5⟩
    have hpath : ∀ (a : Nat) (ds : List Int) (b : Nat), IsPath h a ds b →
        IsPath (verified env h st c k kst) a ds b := by
      intro a ds
      induction ds generalizing a with
      | nil => intro b hb; exact hb
      | cons d ds ihd =>
        intro b ⟨ast, q, q1, q2, q3⟩
        obtain ⟨ast1, q4, q5, _⟩ := hnx a ast q1
        exact ⟨ast1, q, q4, by rw [q5]; exact q2, ihd _ _ q3⟩
    have hl1 : Linked (verified env h st c k kst) := by
      intro _ i ist1 h1 c' k' hck
      obtain ⟨ist, h2, h3, _⟩ := hnx' i ist1 h1
      rw [h3] at hck
      obtain ⟨a, k1, b1, b2⟩ := hl hg i ist h2 c' k' hck
      obtain ⟨k2, b3, _, b5⟩ := hnx k' k1 b1
      exact ⟨a, k2, b3, b5.trans b2⟩
    have hk1 : (verified env h st c k kst).states[k]? =
        some { kst with modelStates := (nextAll env.toLMOps st c 0 h.models).1 } := by
      simp [verified, lt_of_getElem?_eq_some hk]
    obtain ⟨h', tst, f1, f0, f2, f3, f4, f5, f6⟩ := ih (h := verified env h st c k kst) hvi hl1 hg
      hk1 (hpath _ _ _ e3)
    have g0 : Good env h (verified env h st c k kst) :=
      ⟨hvi, ⟨rfl, rfl, rfl, id, by simp [verified], ht.toU⟩,
        fun P Q pr x => pr.verify h s k st kst c hi x hst e2 hk hprev hsym⟩
    have hsame : ∀ i, i < h.states.length → h.turnsLeft i ≤ h.turnsLeft s →
        h'.states[i]? = h.states[i]? := by
      intro i hlt his
      have e4 : ∀ q, (verified env h st c k kst).turnsLeft q = h.turnsLeft q := fun _ => rfl
      rw [f2 i (by simpa [verified] using hlt) (by rw [e4, e4]; omega)]
      simp only [verified, List.getElem?_set]
      rw [if_neg (by rintro rfl; omega)]
    refine ⟨h', tst, ?_, g0.trans f0, hsame, ⟨st, k, by rw [hsame s (lt_of_getElem?_eq_some hst) (Nat.le_refl _)]; exact hst, e2, f3⟩,
      Touches.trans ht f4, f5, ?_⟩
    · simp only [verifyLoop, hst, e2, hk, HubState.verifyOrCorrect]
      rw [if_neg (by simp [hprev, hsym]), if_pos (by omega)]
      simp only [ok_bind, if_true]
      rw [hd]
      exact f1
    · intro j m hm
      obtain ⟨m1, hm1, hm2⟩ := Pointwise.get ht hm
      have := f6 j m1 hm1
      rw [this]
      have hn := nextAll_fst env.toLMOps st c 0 h.models hm
      have e : HubState.modelState { kst with modelStates := (nextAll env.toLMOps st c 0 h.models).1 } j
          = view m (st.modelState j) c := by
        simp only [HubState.modelState, hn, Nat.zero_add]
        exact hv.next_eq _ _ _
      rw [e, ← hv.inv.touch hm2]
      rfl

end Mozolm.Hub
