import Verif.Hub.Preserve

/-! # Hub: predecessor links, start state, and static components -/

namespace Mozolm.Hub
variable {A : Arith} {σ : Type}

/-! ## predecessor links (no assumption on components) -/

/-- unless a state was recycled while being extended, every cached transition leads to another state
whose recorded predecessor is the source -/
def Linked (h : Hub A σ) : Prop :=
  h.selfRecycled = false → ∀ (i : Nat) (st : HubState A.C), h.states[i]? = some st →
    ∀ c k, (c, k) ∈ st.nexts → k ≠ i ∧ ∃ kst : HubState A.C, h.states[k]? = some kst ∧ kst.prev = i

/-- conversely, a recorded predecessor has the state among its cached transitions -/
def BackLinked (h : Hub A σ) : Prop :=
  h.selfRecycled = false → ∀ (i : Nat) (st : HubState A.C), h.states[i]? = some st →
    ∀ p : Nat, st.prev = p → ∃ pst : HubState A.C, h.states[p]? = some pst ∧ (st.sym, i) ∈ pst.nexts

theorem Linked.frame {env : Env A σ} {h h' : Hub A σ} (hl : Linked h) (f : Frame env h h') :
    Linked h' := by
  intro hs i st hst c k hck
  obtain ⟨st0, e1, e2, _⟩ := f.st i st hst
  rw [e2] at hck
  obtain ⟨a, kst, b1, b2⟩ := hl (by rw [← f.ghost]; exact hs) i st0 e1 c k hck
  obtain ⟨kst', g1, _, _, g4, _⟩ := f.symm_st b1
  exact ⟨a, kst', g1, g4.trans b2⟩

theorem BackLinked.frame {env : Env A σ} {h h' : Hub A σ} (hl : BackLinked h) (f : Frame env h h') :
    BackLinked h' := by
  intro hs i st hst p hp
  obtain ⟨st0, e1, e2, e3, e4, _⟩ := f.st i st hst
  obtain ⟨pst, b1, b2⟩ := hl (by rw [← f.ghost]; exact hs) i st0 e1 p (by rw [← e4]; exact hp)
  obtain ⟨pst', g1, g2, _⟩ := f.symm_st b1
  exact ⟨pst', g1, by rw [g2, e3]; exact b2⟩

theorem mem_kept {env : Env A σ} {h : Hub A σ} {i : Nat} {st : HubState A.C} {e : Int × Nat}
    (he : e ∈ (kept env h i st).nexts) : ¬ (i = 0 ∧ wraps h) := by
  intro hw
  simp [kept, hw, startState, HubState.mk'] at he

theorem slot_lt {h : Hub A σ} {env : Env A σ} {ms : List Int} {prev : Nat} {c : Int} {i : Nat}
    (hne : i ≠ victim h) (hlt : i < (created env h ms prev c).states.length) :
    i < h.states.length := by
  rw [created_length] at hlt
  unfold victim at hne
  split at hlt
  · next hh => rw [if_pos hh] at hne; omega
  · exact hlt

/-- The edges of the table after a creation: old ones between untouched slots, or the new one. -/
theorem created_edge {env : Env A σ} (hf : env.Fair) {h : Hub A σ} (hi : Inv h) {ms : List Int}
    {prev : Nat} {pst : HubState A.C} (hp : h.states[prev]? = some pst) {c : Int}
    (hl : HubState.lookup pst.nexts c = none) {i : Nat} {st : HubState A.C}
    (hst : (created env h ms prev c).states[i]? = some st) {c' : Int} {k : Nat}
    (he : (c', k) ∈ st.nexts) :
    (i = prev ∧ c' = c ∧ k = victim h) ∨
    (∃ ost, h.states[i]? = some ost ∧ (c', k) ∈ ost.nexts ∧ i ≠ victim h ∧ k ≠ victim h ∧
      ¬ (i = 0 ∧ wraps h)) := by
  by_cases hiv : i = victim h
  · subst hiv
    obtain ⟨vst, v1, _, _, _, _, _, _, v8⟩ := created_new (env := env) (ms := ms) hf hi hp hl
    rw [hst] at v1; cases v1
    rw [v8] at he
    split at he
    · next hv =>
      simp only [List.mem_singleton, Prod.mk.injEq] at he
      exact .inl ⟨hv, he.1, he.2⟩
    · cases he
  · have hilt := slot_lt hiv (lt_of_getElem?_eq_some hst)
    obtain ⟨ost, host⟩ := exists_getElem?_of_lt hilt
    obtain ⟨st', g1, _, _, _, _, _, _, g8⟩ :=
        created_other (env := env) (ms := ms) hf hi hp hl hiv host
    rw [hst] at g1; cases g1
    rw [g8] at he
    rcases List.mem_append.1 he with he | he
    · right
      have hns := mem_kept he
      rw [kept_ne_start hns] at he
      refine ⟨ost, host, he, hiv, ?_, hns⟩
      rintro rfl
      rcases edge_to_victim hi host he with h' | h'
      · exact hiv h'
      · exact hns h'
    · left
      by_cases hip : i = prev
      · simp only [hip, if_true, List.mem_singleton, Prod.mk.injEq] at he
        exact ⟨hip, he.1, he.2⟩
      · simp [hip] at he

theorem created_linked {env : Env A σ} (hf : env.Fair) {h : Hub A σ} (hi : Inv h) {ms : List Int}
    {prev : Nat} {pst : HubState A.C} (hp : h.states[prev]? = some pst) {c : Int}
    (hl : HubState.lookup pst.nexts c = none) (hL : Linked h) :
    Linked (created env h ms prev c) := by
  intro hs i st hst c' k he
  simp only [created, Bool.or_eq_false_iff, beq_eq_false_iff_ne] at hs
  obtain ⟨hs, hvp⟩ := hs
  have hL := hL hs
  have hnl : ¬ VictimLoop h := by
    rintro ⟨_, vst, hv, ht⟩
    obtain ⟨c0, h0⟩ := mem_targets.1 ht
    exact (hL _ vst hv c0 _ h0).1 rfl
  rcases created_edge (env := env) (ms := ms) hf hi hp hl hst he with ⟨rfl, rfl, rfl⟩ | h'
  · obtain ⟨vst, v1, _, _, _, _, _, v7, _⟩ := created_new (env := env) (ms := ms) hf hi hp hl
    exact ⟨hvp, vst, v1, v7 hnl⟩
  · obtain ⟨ost, host, heo, hiv, hkv, hns⟩ := h'
    obtain ⟨hki, kst, hk1, hk2⟩ := hL i ost host c' k heo
    refine ⟨hki, ?_⟩
    obtain ⟨kst', f1, _, _, _, _, _, f7, _⟩ :=
      created_other (env := env) (ms := ms) hf hi hp hl hkv hk1
    refine ⟨kst', f1, ?_⟩
    have hk0 : k ≠ 0 := by
      have := ((hi.st i ost host).edges c' k heo).2.1; omega
    rw [f7, kept_ne_start (by omega), hk2]
    rintro ⟨_, ⟨vst, hv, ht⟩ | ⟨hw, st0, h0, ht⟩⟩
    · obtain ⟨c0, h0⟩ := mem_targets.1 ht
      obtain ⟨_, kst2, e1, e2⟩ := hL _ vst hv c0 _ h0
      rw [hk1] at e1; cases e1
      omega
    · obtain ⟨c0, h0'⟩ := mem_targets.1 ht
      obtain ⟨_, kst2, e1, e2⟩ := hL _ st0 h0 c0 _ h0'
      rw [hk1] at e1; cases e1
      exact hns ⟨by omega, hw⟩

theorem created_backLinked {env : Env A σ} (hf : env.Fair) {h : Hub A σ} (hi : Inv h)
    {ms : List Int} {prev : Nat} {pst : HubState A.C} (hp : h.states[prev]? = some pst) {c : Int}
    (hl : HubState.lookup pst.nexts c = none) (hL : BackLinked h) :
    BackLinked (created env h ms prev c) := by
  intro hs i st hst p hpp
  simp only [created, Bool.or_eq_false_iff, beq_eq_false_iff_ne] at hs
  obtain ⟨hs, hvp⟩ := hs
  have hL := hL hs
  by_cases hiv : i = victim h
  · subst hiv
    obtain ⟨vst, v1, v2, _, _, _, v6, _⟩ := created_new (env := env) (ms := ms) hf hi hp hl
    rw [hst] at v1; cases v1
    have : p = prev := by rcases v6 with e | e <;> omega
    subst this
    obtain ⟨st', f1, _, _, _, _, _, _, f8⟩ :=
      created_other (env := env) (ms := ms) hf hi hp hl (i := p) (fun e => hvp e.symm) hp
    refine ⟨st', f1, ?_⟩
    rw [f8, if_pos rfl, v2]
    exact List.mem_append_right _ (by simp)
  · have hilt := slot_lt hiv (lt_of_getElem?_eq_some hst)
    obtain ⟨ost, host⟩ := exists_getElem?_of_lt hilt
    have hA := created_get hf hi hp hl hst
    cases hA with
    | victim => exact absurd rfl hiv
    | other i ost' st1 st2 hne' host' h1 h2 =>
      rw [host] at host'; cases host'
      have hpr : st.prev = st1.prev ∧ st.sym = st1.sym := by
        rcases h2 with ⟨_, rfl⟩ | ⟨_, rfl⟩ <;> exact ⟨rfl, rfl⟩
      rcases h1 with ⟨hnd, rfl⟩ | ⟨_, rfl⟩
      · have hns : ¬ (i = 0 ∧ wraps h) := by
          intro hw
          have e : st.prev = -1 := by rw [hpr.1]; simp [kept, hw, startState, HubState.mk']
          omega
        rw [kept_ne_start hns] at hpr
        obtain ⟨qst, q1, q2⟩ := hL i ost host p (by rw [← hpr.1]; exact hpp)
        have hpv : p ≠ victim h := by
          rintro rfl
          refine hnd ⟨?_, .inl ⟨qst, q1, mem_targets.2 ⟨_, q2⟩⟩⟩
          have := lt_of_getElem?_eq_some q1
          unfold victim at this
          split at this <;> omega
        have hpw : ¬ (p = 0 ∧ wraps h) := by
          rintro ⟨rfl, hw⟩
          exact hnd ⟨hw.1, .inr ⟨hw, qst, q1, mem_targets.2 ⟨_, q2⟩⟩⟩
        obtain ⟨st', f1, _, _, _, _, _, _, f8⟩ :=
          created_other (env := env) (ms := ms) hf hi hp hl hpv q1
        refine ⟨st', f1, ?_⟩
        rw [f8, kept_ne_start hpw, hpr.2]
        exact List.mem_append_left _ q2
      · have e : st.prev = -1 := by rw [hpr.1]; rfl
        omega

theorem verified_frameish {env : Env A σ} {h : Hub A σ} {st kst : HubState A.C} {c : Int} {k : Nat}
    (hk : h.states[k]? = some kst) {i : Nat} {st' : HubState A.C}
    (hst : (verified env h st c k kst).states[i]? = some st') :
    ∃ st0, h.states[i]? = some st0 ∧ st'.nexts = st0.nexts ∧ st'.prev = st0.prev ∧
      st'.sym = st0.sym ∧ st'.hist = st0.hist ∧ st'.histSum = st0.histSum ∧
      (i ≠ k → st' = st0) ∧ (i = k → st'.modelStates = (nextAll env.toLMOps st c 0 h.models).1) := by
  simp only [verified, List.getElem?_set] at hst
  split at hst
  · next e =>
    subst e
    simp only [lt_of_getElem?_eq_some hk, if_true, Option.some.injEq] at hst
    subst hst
    exact ⟨kst, hk, rfl, rfl, rfl, rfl, rfl, fun e => absurd rfl e, fun _ => rfl⟩
  · next e => exact ⟨st', hst, rfl, rfl, rfl, rfl, rfl, fun _ => rfl, fun e' => absurd e'.symm e⟩

theorem linked_preserved {env : Env A σ} (hf : env.Fair) :
    Preserved env (Linked) (fun _ h => Linked h) where
  models h ms hi hL _ := by
    intro hs i st hst c k hck
    exact hL hs i st hst c k hck
  create h s st c hi hL hst hl hc := by
    have ht := nextAll_touches env.toLMOps st c 0 h.models
    exact created_linked (h := { h with models := (nextAll env.toLMOps st c 0 h.models).2 }) hf
      (hi.setModels ht.length_eq.symm) hst hl hL
  pend h s hi hs hL := hL.frame (bayesed_frame env h s)
  hist h s hi hs hL := hL.frame (bayesed_frame env h s)
  verify h s k st kst c hi hL hst hl hk hp hc := by
    intro hs i st' hst' c' k' hck
    obtain ⟨st0, e1, e2, e3, _⟩ := verified_frameish hk hst'
    rw [e2] at hck
    obtain ⟨a, kst0, b1, b2⟩ := hL hs i st0 e1 c' k' hck
    refine ⟨a, ?_⟩
    have hlt : k' < (verified env h st c k kst).states.length := by
      simpa [verified] using lt_of_getElem?_eq_some b1
    obtain ⟨kst1, hk1⟩ := exists_getElem?_of_lt hlt
    obtain ⟨st1, f1, _, f3, _⟩ := verified_frameish hk hk1
    rw [b1] at f1; cases f1
    exact ⟨kst1, hk1, f3.trans b2⟩

/-- in every history: the recorded predecessor of the target of a cached transition is the source, or
none -/
def WeaklyLinked (h : Hub A σ) : Prop :=
  ∀ (i : Nat) (st : HubState A.C), h.states[i]? = some st → ∀ c k, (c, k) ∈ st.nexts →
    ∃ kst : HubState A.C, h.states[k]? = some kst ∧ (kst.prev = i ∨ kst.prev = -1)

theorem WeaklyLinked.frame {env : Env A σ} {h h' : Hub A σ} (hl : WeaklyLinked h)
    (f : Frame env h h') : WeaklyLinked h' := by
  intro i st hst c k hck
  obtain ⟨st0, e1, e2, _⟩ := f.st i st hst
  rw [e2] at hck
  obtain ⟨kst, b1, b2⟩ := hl i st0 e1 c k hck
  obtain ⟨kst', g1, _, _, g4, _⟩ := f.symm_st b1
  exact ⟨kst', g1, by rw [g4]; exact b2⟩

theorem created_weaklyLinked {env : Env A σ} (hf : env.Fair) {h : Hub A σ} (hi : Inv h)
    {ms : List Int} {prev : Nat} {pst : HubState A.C} (hp : h.states[prev]? = some pst) {c : Int}
    (hl : HubState.lookup pst.nexts c = none) (hL : WeaklyLinked h) :
    WeaklyLinked (created env h ms prev c) := by
  intro i st hst c' k he
  rcases created_edge (env := env) (ms := ms) hf hi hp hl hst he with ⟨rfl, rfl, rfl⟩ | h'
  · obtain ⟨vst, v1, _, _, _, _, v6, _⟩ := created_new (env := env) (ms := ms) hf hi hp hl
    exact ⟨vst, v1, v6.symm⟩
  · obtain ⟨ost, host, heo, hiv, hkv, hns⟩ := h'
    obtain ⟨kst, hk1, hk2⟩ := hL i ost host c' k heo
    obtain ⟨kst', f1, _, _, _, _, f6, _⟩ :=
      created_other (env := env) (ms := ms) hf hi hp hl hkv hk1
    refine ⟨kst', f1, ?_⟩
    have hk0 : k ≠ 0 := by
      have := ((hi.st i ost host).edges c' k heo).2.1; omega
    rw [kept_ne_start (by omega)] at f6
    rcases f6 with e | e
    · exact .inr e
    · rw [e]; exact hk2

theorem weaklyLinked_preserved {env : Env A σ} (hf : env.Fair) :
    Preserved env (WeaklyLinked) (fun _ h => WeaklyLinked h) where
  models h ms hi hL _ := by
    intro i st hst c k hck
    exact hL i st hst c k hck
  create h s st c hi hL hst hl hc := by
    have ht := nextAll_touches env.toLMOps st c 0 h.models
    exact created_weaklyLinked (h := { h with models := (nextAll env.toLMOps st c 0 h.models).2 }) hf
      (hi.setModels ht.length_eq.symm) hst hl hL
  pend h s hi hs hL := hL.frame (bayesed_frame env h s)
  hist h s hi hs hL := hL.frame (bayesed_frame env h s)
  verify h s k st kst c hi hL hst hl hk hp hc := by
    intro i st' hst' c' k' hck
    obtain ⟨st0, e1, e2, e3, _⟩ := verified_frameish hk hst'
    rw [e2] at hck
    obtain ⟨kst0, b1, b2⟩ := hL i st0 e1 c' k' hck
    have hlt : k' < (verified env h st c k kst).states.length := by
      simpa [verified] using lt_of_getElem?_eq_some b1
    obtain ⟨kst1, hk1⟩ := exists_getElem?_of_lt hlt
    obtain ⟨st1, f1, _, f3, _⟩ := verified_frameish hk hk1
    rw [b1] at f1; cases f1
    exact ⟨kst1, hk1, by rw [f3]; exact b2⟩

theorem backLinked_preserved {env : Env A σ} (hf : env.Fair) :
    Preserved env (BackLinked) (fun _ h => BackLinked h) where
  models h ms hi hL _ := by
    intro hs i st hst p hp
    exact hL hs i st hst p hp
  create h s st c hi hL hst hl hc := by
    have ht := nextAll_touches env.toLMOps st c 0 h.models
    exact created_backLinked (h := { h with models := (nextAll env.toLMOps st c 0 h.models).2 }) hf
      (hi.setModels ht.length_eq.symm) hst hl hL
  pend h s hi hs hL := hL.frame (bayesed_frame env h s)
  hist h s hi hs hL := hL.frame (bayesed_frame env h s)
  verify h s k st kst c hi hL hst hl hk hp hc := by
    intro hs i st' hst' p hpp
    obtain ⟨st0, e1, e2, e3, e4, _⟩ := verified_frameish hk hst'
    obtain ⟨pst, b1, b2⟩ := hL hs i st0 e1 p (by rw [← e3]; exact hpp)
    have hlt : p < (verified env h st c k kst).states.length := by
      simpa [verified] using lt_of_getElem?_eq_some b1
    obtain ⟨pst1, hp1⟩ := exists_getElem?_of_lt hlt
    obtain ⟨st1, f1, f2, f3, _⟩ := verified_frameish hk hp1
    rw [b1] at f1; cases f1
    exact ⟨pst1, hp1, by rw [f2, e4]; exact b2⟩

/-! ## the start state -/

/-- A component's start state is never changed by its operations. -/
structure LMOps.StartStable (ops : LMOps A σ) : Prop where
  next : ∀ m s c, ops.start (ops.next m s c).2 = ops.start m
  extract : ∀ m s, ops.start (ops.extract m s).2 = ops.start m
  score : ∀ m s c, ops.start (ops.symScore m s c).2 = ops.start m
  update : ∀ m s cs n, ops.start (ops.update m s cs n).2 = ops.start m

theorem LMOps.StartStable.touch {ops : LMOps A σ} (hs : ops.StartStable) {a b : σ}
    (h : TouchU ops a b) : ops.start a = ops.start b := by
  induction h with
  | refl => rfl
  | next s c _ ih => rw [hs.next]; exact ih
  | extract s _ ih => rw [hs.extract]; exact ih
  | score s c _ ih => rw [hs.score]; exact ih
  | update s cs n _ ih => rw [hs.update]; exact ih

theorem LMOps.StartStable.touches {ops : LMOps A σ} (hs : ops.StartStable) {a b : List σ}
    (h : TouchesU ops a b) : a.map ops.start = b.map ops.start :=
  h.map_eq (R := TouchU ops) (f := ops.start) fun _ _ => hs.touch

/-- Slot 0 holds the components' start states and has no predecessor and the symbol 0. -/
def StartOK (env : Env A σ) (h : Hub A σ) : Prop :=
  ∃ st : HubState A.C, h.states[0]? = some st ∧ st.modelStates = h.models.map env.start ∧
    st.prev = -1 ∧ st.sym = 0

theorem StartOK.frame {env : Env A σ} (hss : env.toLMOps.StartStable) {h h' : Hub A σ}
    (hs : StartOK env h) (f : Frame env h h') : StartOK env h' := by
  obtain ⟨st, e1, e2, e3, e4⟩ := hs
  obtain ⟨st', g1, _, g3, g4, g5⟩ := f.symm_st e1
  exact ⟨st', g1, by rw [g5, e2]; exact hss.touches f.models.toU, g4.trans e3, g3.trans e4⟩

theorem created_start {env : Env A σ} (hf : env.Fair) {h : Hub A σ} (hi : Inv h) {ms : List Int}
    {prev : Nat} {pst : HubState A.C} (hp : h.states[prev]? = some pst) {c : Int}
    (hl : HubState.lookup pst.nexts c = none) (hS : StartOK env h) :
    StartOK env (created env h ms prev c) := by
  obtain ⟨st, e1, e2, e3, e4⟩ := hS
  have hv : 0 ≠ victim h := by have := victim_pos hi; omega
  obtain ⟨st', f1, f2, f3, _, _, f6, _, _⟩ := created_other (env := env) (ms := ms) hf hi hp hl hv e1
  refine ⟨st', f1, ?_, ?_, ?_⟩
  · rw [f3]
    unfold kept
    split
    · rfl
    · exact e2
  · rcases f6 with h6 | h6
    · exact h6
    · rw [h6]
      unfold kept
      split
      · rfl
      · exact e3
  · rw [f2]
    unfold kept
    split
    · rfl
    · exact e4

theorem start_preserved {env : Env A σ} (hf : env.Fair) (hss : env.toLMOps.StartStable) :
    Preserved env (StartOK env) (fun _ h => StartOK env h) where
  models h ms hi hS ht := by
    obtain ⟨st, e1, e2, e3, e4⟩ := hS
    exact ⟨st, e1, by rw [e2]; exact hss.touches ht, e3, e4⟩
  create h s st c hi hS hst hl hc := by
    have ht := nextAll_touches env.toLMOps st c 0 h.models
    refine created_start (h := { h with models := (nextAll env.toLMOps st c 0 h.models).2 }) hf
      (hi.setModels ht.length_eq.symm) hst hl ?_
    obtain ⟨st, e1, e2, e3, e4⟩ := hS
    exact ⟨st, e1, by rw [e2]; exact hss.touches ht.toU, e3, e4⟩
  pend h s hi hs hL := hL.frame hss (bayesed_frame env h s)
  hist h s hi hs hL := hL.frame hss (bayesed_frame env h s)
  verify h s k st kst c hi hS hst hl hk hp hc := by
    have hk1 : k ≠ 0 := by
      have := ((hi.st s st hst).edges c k (lookup_mem hl)).2.1; omega
    obtain ⟨st0, e1, e2, e3, e4⟩ := hS
    refine ⟨st0, ?_, ?_, e3, e4⟩
    · simp only [verified, List.getElem?_set, if_neg hk1]; exact e1
    · rw [e2]
      exact hss.touches (nextAll_touches env.toLMOps st c 0 h.models).toU

/-! ## static components -/

/-- Components whose transitions and scores are fixed functions of (state, symbol): none of their
operations changes them. `view` and `cost` are those functions. -/
structure LMOps.Static (ops : LMOps A σ) (view : σ → Int → Int → Int)
    (cost : σ → Int → Int → A.C) : Prop where
  start : ops.StartStable
  next_eq : ∀ m s c, (ops.next m s c).1 = view m s c
  score_eq : ∀ m s c, (ops.symScore m s c).1 = cost m s c
  view_next : ∀ m s c, view (ops.next m s c).2 = view m
  view_extract : ∀ m s, view (ops.extract m s).2 = view m
  view_score : ∀ m s c, view (ops.symScore m s c).2 = view m
  view_update : ∀ m s cs n, view (ops.update m s cs n).2 = view m
  cost_next : ∀ m s c, cost (ops.next m s c).2 = cost m
  cost_extract : ∀ m s, cost (ops.extract m s).2 = cost m
  cost_score : ∀ m s c, cost (ops.symScore m s c).2 = cost m
  cost_update : ∀ m s cs n, cost (ops.update m s cs n).2 = cost m

section
variable {ops : LMOps A σ} {view : σ → Int → Int → Int} {cost : σ → Int → Int → A.C}

theorem LMOps.Static.touch (hs : ops.Static view cost) {a b : σ} (h : TouchU ops a b) :
    view a = view b ∧ cost a = cost b := by
  induction h with
  | refl => exact ⟨rfl, rfl⟩
  | next s c _ ih => rw [hs.view_next, hs.cost_next]; exact ih
  | extract s _ ih => rw [hs.view_extract, hs.cost_extract]; exact ih
  | score s c _ ih => rw [hs.view_score, hs.cost_score]; exact ih
  | update s cs n _ ih => rw [hs.view_update, hs.cost_update]; exact ih

theorem LMOps.Static.views (hs : ops.Static view cost) {a b : List σ} (h : TouchesU ops a b) :
    a.map view = b.map view := h.map_eq (R := TouchU ops) (f := view) fun _ _ x => (hs.touch x).1

theorem LMOps.Static.costs (hs : ops.Static view cost) {a b : List σ} (h : TouchesU ops a b) :
    a.map cost = b.map cost := h.map_eq (R := TouchU ops) (f := cost) fun _ _ x => (hs.touch x).2

/-- the component states after symbol `c`, computed directly -/
def stepAll (vs : List (Int → Int → Int)) (states : List Int) (c : Int) : List Int :=
  List.zipWith (fun v s => v s c) vs states

/-- the costs of symbol `c` in each component, computed directly -/
def costAll {C : Type} (cs : List (Int → Int → C)) (states : List Int) (c : Int) : List C :=
  List.zipWith (fun v s => v s c) cs states

theorem modelState_drop {st : HubState A.C} {i : Nat} {s : Int} {rest : List Int}
    (h : st.modelStates.drop i = s :: rest) : st.modelState i = s := by
  unfold HubState.modelState
  have : st.modelStates[i]? = some s := by
    have := List.getElem?_drop (xs := st.modelStates) (i := i) (j := 0)
    rw [h] at this
    simpa using this.symm
  rw [this]

theorem drop_succ_of_drop {l : List Int} {i : Nat} {s : Int} {rest : List Int}
    (h : l.drop i = s :: rest) : l.drop (i + 1) = rest := by
  rw [← List.drop_drop, h]; rfl

theorem nextAll_static (hs : ops.Static view cost) (st : HubState A.C) (c : Int) :
    ∀ (ms : List σ) (i : Nat) (ss : List Int), st.modelStates.drop i = ss → ss.length = ms.length →
    (nextAll ops st c i ms).1 = stepAll (ms.map view) ss c
  | [], i, ss, _, hl => by
    cases ss with
    | nil => rfl
    | cons _ _ => simp at hl
  | m :: ms, i, [], _, hl => by simp at hl
  | m :: ms, i, s :: ss, hd, hl => by
    have h1 := modelState_drop hd
    have ih := nextAll_static hs st c ms (i + 1) ss (drop_succ_of_drop hd) (by simpa using hl)
    simp only [nextAll, ih, h1, hs.next_eq, stepAll, List.map_cons, List.zipWith_cons_cons]

theorem scoreAll_static (hs : ops.Static view cost) (st : HubState A.C) (c : Int) :
    ∀ (ms : List σ) (i : Nat) (ss : List Int), st.modelStates.drop i = ss → ss.length = ms.length →
    (scoreAll ops st c i ms).1 = costAll (ms.map cost) ss c
  | [], i, ss, _, hl => by
    cases ss with
    | nil => rfl
    | cons _ _ => simp at hl
  | m :: ms, i, [], _, hl => by simp at hl
  | m :: ms, i, s :: ss, hd, hl => by
    have h1 := modelState_drop hd
    have ih := scoreAll_static hs st c ms (i + 1) ss (drop_succ_of_drop hd) (by simpa using hl)
    simp only [scoreAll, ih, h1, hs.score_eq, costAll, List.map_cons, List.zipWith_cons_cons]

end

/-- the history rows of a successor, computed directly from those of its predecessor -/
def histStep (A : Arith) (costs : List A.C) (rows : List (List A.C)) : List (List A.C) :=
  List.zipWith (fun c row => row.tail ++ [c]) costs rows

/-- the history sums of a successor -/
def histSumStep (A : Arith) (costs : List A.C) (rows : List (List A.C)) : List A.C :=
  List.zipWith (fun c row => row.tail.foldl A.times c) costs rows

/-- With static components: every cached transition leads to a state whose component states and
history are the successors of those of the source (`pend`: the slot whose history is not set yet). -/
structure Denotes (env : Env A σ) (view : σ → Int → Int → Int) (cost : σ → Int → Int → A.C)
    (pend : Option Nat) (h : Hub A σ) : Prop where
  linked : Linked h
  start : StartOK env h
  startHist : 0 < h.hlen → ∀ st, h.states[0]? = some st →
    st.hist = (initHist A h.models.length h.hlen).1 ∧
    st.histSum = (initHist A h.models.length h.hlen).2
  pos : pend ≠ some 0
  edge : h.selfRecycled = false → ∀ (i : Nat) (st : HubState A.C), h.states[i]? = some st →
    ∀ c k, (c, k) ∈ st.nexts → ∀ kst : HubState A.C, h.states[k]? = some kst →
      kst.modelStates = stepAll (h.models.map view) st.modelStates c ∧
      (0 < h.hlen → pend ≠ some i) ∧
      (0 < h.hlen → pend ≠ some k →
        kst.hist = histStep A (costAll (h.models.map cost) st.modelStates c) st.hist ∧
        kst.histSum = histSumStep A (costAll (h.models.map cost) st.modelStates c) st.hist)
  back : BackLinked h

section
variable {env : Env A σ} {view : σ → Int → Int → Int} {cost : σ → Int → Int → A.C}

theorem Denotes.setModels (hs : env.toLMOps.Static view cost) {p : Option Nat} {h : Hub A σ}
    (hd : Denotes env view cost p h) {ms : List σ} (ht : TouchesU env.toLMOps h.models ms) :
    Denotes env view cost p { h with models := ms } := by
  have hl := ht.length_eq
  refine ⟨hd.linked, ?_, ?_, hd.pos, ?_, hd.back⟩
  · obtain ⟨st, e1, e2, e3, e4⟩ := hd.start
    exact ⟨st, e1, by rw [e2]; exact hs.start.touches ht, e3, e4⟩
  · intro hp st hst; simp only [← hl]; exact hd.startHist hp st hst
  · intro hg i st hst c k hck kst hk
    have := hd.edge hg i st hst c k hck kst hk
    simp only [← hs.views ht, ← hs.costs ht]
    exact this

theorem created_denotes (hf : env.Fair) (hs : env.toLMOps.Static view cost) {h : Hub A σ}
    (hi : Inv h) (hd : Denotes env view cost none h) {s : Nat} {st : HubState A.C}
    (hst : h.states[s]? = some st) {c : Int} (hc : 0 ≤ c)
    (hl : HubState.lookup st.nexts c = none) :
    Denotes env view cost (some (victim h)) (createdFrom env h s st c) := by
  have ht := nextAll_touches env.toLMOps st c 0 h.models
  have hi' := hi.setModels ht.length_eq.symm
  have hd' := hd.setModels hs ht.toU
  have hms : (nextAll env.toLMOps st c 0 h.models).1 =
      stepAll (h.models.map view) st.modelStates c :=
    nextAll_static hs st c h.models 0 st.modelStates rfl (hi.st s st hst).ms
  have hlk : Linked (createdFrom env h s st c) := created_linked hf hi' hst hl hd'.linked
  have hstart : StartOK env (createdFrom env h s st c) := created_start hf hi' hst hl hd'.start
  have hv0 : victim h ≠ 0 := by have := victim_pos hi; omega
  obtain ⟨vst, v1, v2, v3, v4, v5, v6, v7, v8⟩ :=
    created_new (env := env) (ms := (nextAll env.toLMOps st c 0 h.models).1) hf hi' hst hl
  have v1 : (createdFrom env h s st c).states[victim h]? = some vst := v1
  -- slots other than the victim
  have hother : ∀ i ost, i ≠ victim h → h.states[i]? = some ost → ¬ (i = 0 ∧ wraps h) →
      ∃ st', (createdFrom env h s st c).states[i]? = some st' ∧ st'.modelStates = ost.modelStates ∧
        st'.hist = ost.hist ∧ st'.histSum = ost.histSum := by
    intro i ost hne host hns
    obtain ⟨st', f1, _, f3, f4, f5, _⟩ := created_other (env := env)
      (ms := (nextAll env.toLMOps st c 0 h.models).1) hf hi' hst hl (i := i) hne host
    have hkp : kept env { h with models := (nextAll env.toLMOps st c 0 h.models).2 } i ost = ost :=
      kept_ne_start hns
    rw [hkp] at f3 f4 f5
    exact ⟨st', f1, f3, f4, f5⟩
  refine ⟨hlk, hstart, ?_, by simpa using hv0, ?_, ?_⟩
  · intro hp st0' hst0'
    obtain ⟨st0, hst0⟩ := exists_getElem?_of_lt hi.pos
    obtain ⟨st', f1, _, _, f4, f5, _⟩ := created_other (env := env)
      (ms := (nextAll env.toLMOps st c 0 h.models).1) hf hi' hst hl (i := 0) (fun e => hv0 e.symm) hst0
    have f1 : (createdFrom env h s st c).states[0]? = some st' := f1
    rw [hst0'] at f1; cases f1
    rw [f4, f5]
    unfold kept
    split
    · simp [startState, HubState.mk', createdFrom, created]
    · exact hd'.startHist hp st0 hst0
  · intro hg i ist hist c' k hck kst hk
    have hg0 : h.selfRecycled = false ∧ victim h ≠ s := by
      simp only [createdFrom, created, Bool.or_eq_false_iff, beq_eq_false_iff_ne] at hg
      exact hg
    rcases created_edge (env := env) hf hi' hst hl hist hck with ⟨rfl, rfl, hkv⟩ | h'
    · have hkv : k = victim h := hkv
      subst hkv
      rw [v1] at hk; cases hk
      refine ⟨?_, fun _ => ?_, fun _ hne => absurd rfl hne⟩
      · rw [v3, hms]
        have e1 : (createdFrom env h i st c').models.map view = h.models.map view :=
          (hs.views ht.toU).symm
        rw [e1]
        -- component states of the source are unchanged
        have e2 : ist.modelStates = st.modelStates := by
          obtain ⟨st', f1, _, f3, _⟩ := created_other (env := env)
            (ms := (nextAll env.toLMOps st c' 0 h.models).1) hf hi' hst hl (i := i)
            (fun e => hg0.2 e.symm) hst
          have f1 : (createdFrom env h i st c').states[i]? = some st' := f1
          rw [hist] at f1; cases f1
          rw [f3]
          unfold kept
          split
          · next hw =>
            obtain ⟨st0, s1, s2, _⟩ := hd'.start
            rw [hw.1] at hst
            have s1 : h.states[0]? = some st0 := s1
            rw [hst] at s1; cases s1
            rw [s2]; rfl
          · rfl
        rw [e2]
      · simpa using hg0.2
    · obtain ⟨ost, host, heo, hiv, hkv, hns⟩ := h'
      have hiv : i ≠ victim h := hiv
      have hkv : k ≠ victim h := hkv
      have hns : ¬ (i = 0 ∧ wraps h) := hns
      have hk0 : k ≠ 0 := by
        have := ((hi.st i ost host).edges c' k heo).2.1; omega
      obtain ⟨_, _, _, okst, hok, _⟩ := (hi.st i ost host).edges c' k heo
      obtain ⟨i', a1, a2, a3, a4⟩ := hother i ost hiv host hns
      rw [hist] at a1; cases a1
      obtain ⟨k', b1, b2, b3, b4⟩ := hother k okst hkv hok (fun h => hk0 h.1)
      rw [hk] at b1; cases b1
      have := hd'.edge hg0.1 i ost host c' k heo okst hok
      refine ⟨?_, fun _ => by simpa using (fun e => hiv e.symm), fun hp hne => ?_⟩
      · rw [b2, a2]; exact this.1
      · rw [b3, b4, a2, a3]
        exact this.2.2 hp (by simp)
  · exact created_backLinked hf hi' hst hl hd'.back

theorem scoreAll_of (hs : env.toLMOps.Static view cost) {h : Hub A σ} (hi : Inv h) {p : Nat}
    {pst : HubState A.C} (hp : h.states[p]? = some pst) (c : Int) :
    (scoreAll env.toLMOps pst c 0 h.models).1 = costAll (h.models.map cost) pst.modelStates c :=
  scoreAll_static hs pst c h.models 0 pst.modelStates rfl (hi.st p pst hp).ms

/-- the history update makes the pending slot right, and keeps right slots right -/
theorem bayesed_denotes (hs : env.toLMOps.Static view cost) {h : Hub A σ} (hi : Inv h) {s : Nat}
    (hslt : s < h.states.length) {p : Option Nat} (hps : p = none ∨ p = some s)
    (hd : Denotes env view cost p h) : Denotes env view cost none (bayesed env h s) := by
  have hfr := bayesed_frame env h s
  have hlk := hd.linked.frame hfr
  have hst0 := hd.start.frame hs.start hfr
  have hm := hfr.models.toU
  -- nothing to do without history
  by_cases hz : h.hlen = 0
  · have hb : bayesed env h s = h := by simp [bayesed, hz]
    rw [hb]
    refine ⟨hd.linked, hd.start, fun hp => by omega, by simp, ?_, hd.back⟩
    intro hg i st hst c k hck kst hk
    exact ⟨(hd.edge hg i st hst c k hck kst hk).1, fun hp => by omega, fun hp => by omega⟩
  have hpos : 0 < h.hlen := Nat.pos_of_ne_zero hz
  obtain ⟨st, hst⟩ := exists_getElem?_of_lt hslt
  by_cases hpv : st.prev < 0
  · -- no predecessor: nothing happens
    have hb : bayesed env h s = h := by simp [bayesed, hst, hpv]
    rw [hb]
    refine ⟨hd.linked, hd.start, hd.startHist, by simp, ?_, hd.back⟩
    intro hg i ist hist c k hck kst hk
    have := hd.edge hg i ist hist c k hck kst hk
    refine ⟨this.1, fun _ => by simp, fun hp _ => ?_⟩
    by_cases hks : p = some k
    · obtain ⟨_, kst', e1, e2⟩ := hd.linked hg i ist hist c k hck
      rcases hps with h0 | h0
      · rw [h0] at hks; cases hks
      · rw [h0] at hks; cases hks
        rw [hst] at e1; cases e1
        omega
    · exact this.2.2 hp hks
  · have hplt : st.prev.toNat < h.states.length := by
      have := (hi.st s st hst).prev_lt; omega
    obtain ⟨pst, hpst⟩ := exists_getElem?_of_lt hplt
    have hsc := scoreAll_of hs hi hpst st.sym
    have hb : bayesed env h s = { h with
        states := h.states.set s { st with
          hist := histStep A (costAll (h.models.map cost) pst.modelStates st.sym) pst.hist
          histSum := histSumStep A (costAll (h.models.map cost) pst.modelStates st.sym) pst.hist }
        models := (scoreAll env.toLMOps pst st.sym 0 h.models).2 } := by
      simp only [bayesed, hz, if_false, hst, hpv, hpst, hsc]
      rfl
    -- slot 0 has no predecessor
    have hs0 : s ≠ 0 := by
      rintro rfl
      obtain ⟨st0, g1, _, g3, _⟩ := hd.start
      rw [hst] at g1; cases g1
      omega
    have hget : ∀ j, (bayesed env h s).states[j]? = if j = s then some { st with
          hist := histStep A (costAll (h.models.map cost) pst.modelStates st.sym) pst.hist
          histSum := histSumStep A (costAll (h.models.map cost) pst.modelStates st.sym) pst.hist }
        else h.states[j]? := by
      intro j
      rw [hb]
      simp only [List.getElem?_set]
      by_cases hj : s = j
      · subst hj; simp [hslt]
      · have : ¬ j = s := fun e => hj e.symm
        simp [hj, this]
    have hmod : (bayesed env h s).models = (scoreAll env.toLMOps pst st.sym 0 h.models).2 := by
      rw [hb]
    refine ⟨hlk, hst0, ?_, by simp, ?_, hd.back.frame hfr⟩
    · intro hp st0 hst0'
      rw [hget 0, if_neg (fun e => hs0 e.symm)] at hst0'
      rw [hfr.hlen, ← hfr.models.length_eq]
      exact hd.startHist hpos st0 hst0'
    · intro hg i ist hist c k hck kst hk
      have hg0 : h.selfRecycled = false := by rw [← hfr.ghost]; exact hg
      rw [← hs.views hm, ← hs.costs hm]
      obtain ⟨ist0, i1, i2, i3, i4, i5⟩ := hfr.st i ist hist
      obtain ⟨kst0, k1, k2, k3, k4, k5⟩ := hfr.st k kst hk
      rw [i2] at hck
      have he := hd.edge hg0 i ist0 i1 c k hck kst0 k1
      obtain ⟨hki, kst1, l1, l2⟩ := hd.linked hg0 i ist0 i1 c k hck
      rw [k1] at l1; cases l1
      refine ⟨by rw [k5, i5]; exact he.1, fun _ => by simp, fun hp _ => ?_⟩
      -- the sources's history is unchanged if it is not `s`; if `k = s` it has just been computed
      have hkc : kst0.sym = c := by
        obtain ⟨_, _, _, kx, hx1, hx2⟩ := (hi.st i ist0 i1).edges c k hck
        rw [k1] at hx1; cases hx1; exact hx2
      have hi_hist : ist.hist = ist0.hist := by
        by_cases his : i = s
        · -- source is `s`: its history is recomputed to what it was
          subst his
          rw [hst] at i1; cases i1
          have hpne : p ≠ some i := he.2.1 hpos
          have hpn : p = none := by
            rcases hps with h0 | h0
            · exact h0
            · exact absurd h0 hpne
          rw [hget i, if_pos rfl] at hist
          cases hist
          show histStep A _ _ = st.hist
          -- `s` is a successor of its predecessor unless it was detached
          obtain ⟨pst', q1, q2⟩ := hd.back hg0 i st hst st.prev.toNat (by omega)
          rw [hpst] at q1; cases q1
          have := hd.edge hg0 _ pst hpst st.sym i q2 st hst
          exact (this.2.2 hpos hpne).1.symm
        · rw [hget i, if_neg his] at hist
          rw [i1] at hist; cases hist; rfl
      by_cases hks : k = s
      · subst hks
        rw [hst] at k1; cases k1
        have hpi : st.prev.toNat = i := by omega
        rw [hpi] at hpst
        rw [i1] at hpst; cases hpst
        rw [hget k, if_pos rfl] at hk
        cases hk
        rw [i5, hi_hist]
        exact ⟨by rw [hkc], by rw [hkc]⟩
      · rw [hget k, if_neg hks, k1] at hk
        cases hk
        rw [i5, hi_hist]
        refine he.2.2 hpos ?_
        rcases hps with h0 | h0
        · rw [h0]; simp
        · rw [h0]; simpa using fun e => hks e.symm

end
end Mozolm.Hub
