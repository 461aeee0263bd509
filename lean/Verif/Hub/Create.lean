import Verif.Hub.Lemmas

/-! # Hub: closed form of `AssignNewHubState` -/

namespace Mozolm.Hub
variable {A : Arith} {σ : Type}

/-- the slot the next created state will occupy -/
def victim (h : Hub A σ) : Nat :=
  if h.states.length < h.max then h.states.length
  else if h.max ≤ h.last + 1 then 1 else h.last + 1

/-- the table is about to wrap around -/
def wraps (h : Hub A σ) : Prop := h.max ≤ h.states.length ∧ h.max ≤ h.last + 1

instance (h : Hub A σ) : Decidable (wraps h) := by unfold wraps; infer_instance

/-- content of the start state -/
def startState (env : Env A σ) (h : Hub A σ) : HubState A.C :=
  HubState.mk' A (h.models.map env.start) (-1) 0 h.hlen

/-- table after the slot was prepared (language_model_hub.cc:160-175) -/
def baseStates (env : Env A σ) (h : Hub A σ) (new : HubState A.C) : List (HubState A.C) :=
  if h.states.length < h.max then h.states ++ [new]
  else if h.max ≤ h.last + 1 then
    clearAt env (clearAt env h.states 0 (startState env h)) 1 new
  else clearAt env h.states (h.last + 1) new

/-- add an edge in a table -/
def addEdge (states : List (HubState A.C)) (prev : Nat) (c : Int) (idx : Nat) :
    List (HubState A.C) :=
  match states[prev]? with
  | none => states
  | some pst => states.set prev (pst.addNextState c idx)

@[simp] theorem addEdge_length (states : List (HubState A.C)) (prev : Nat) (c : Int) (idx : Nat) :
    (addEdge states prev c idx).length = states.length := by
  unfold addEdge; split <;> simp

/-- hub after creation, before the Bayesian history update -/
def created (env : Env A σ) (h : Hub A σ) (ms : List Int) (prev : Nat) (c : Int) : Hub A σ :=
  { h with
    states := addEdge (baseStates env h (HubState.mk' A ms prev c h.hlen)) prev c (victim h)
    last := victim h
    selfRecycled := h.selfRecycled || victim h == prev }

theorem baseStates_length (env : Env A σ) (h : Hub A σ) (new : HubState A.C) :
    (baseStates env h new).length =
      if h.states.length < h.max then h.states.length + 1 else h.states.length := by
  unfold baseStates; split
  · simp
  · split <;> simp

theorem length_le_baseStates (env : Env A σ) (h : Hub A σ) (new : HubState A.C) :
    h.states.length ≤ (baseStates env h new).length := by
  rw [baseStates_length]; split <;> omega

theorem victim_pos {h : Hub A σ} (hi : Inv h) : 1 ≤ victim h := by
  have := hi.pos
  unfold victim; split
  · omega
  · split <;> omega

theorem victim_lt {h : Hub A σ} (hi : Inv h) (env : Env A σ) (new : HubState A.C) :
    victim h < (baseStates env h new).length := by
  have := hi.max_ge
  rw [baseStates_length]
  unfold victim
  split
  · omega
  · split <;> omega

theorem clearAt_get {env : Env A σ} (hf : env.Fair) (states : List (HubState A.C)) {idx : Nat}
    {new vst : HubState A.C} (hv : states[idx]? = some vst) (i : Nat) :
    (clearAt env states idx new)[i]? =
      ((states.set idx new)[i]?).map fun st =>
        if i ∈ targets vst then st.resetPrev else st := by
  unfold clearAt
  rw [hv]
  simp only [resetAt_get]
  congr 1
  funext st
  have : i ∈ (env.orderN vst.nexts).map Prod.snd ↔ i ∈ targets vst := by
    unfold targets
    exact ((hf.permN vst.nexts).map Prod.snd).mem_iff
  simp [this]

theorem mem_targets {st : HubState A.C} {k : Nat} : k ∈ targets st ↔ ∃ c, (c, k) ∈ st.nexts := by
  unfold targets
  simp

theorem StateOK.target_lt {h : Hub A σ} {i : Nat} {st : HubState A.C} (ho : StateOK h i st)
    {c : Int} {k : Nat} (hk : (c, k) ∈ st.nexts) : k < h.states.length := by
  obtain ⟨_, _, _, kst, hkst, _⟩ := ho.edges c k hk
  exact lt_of_getElem?_eq_some hkst

theorem assignNew_eq {env : Env A σ} (hf : env.Fair) {h : Hub A σ} (hi : Inv h) {ms : List Int}
    (hms : ms.length = h.models.length) {prev : Nat} (hp : prev < h.states.length) (c : Int) :
    assignNew env h ms prev c =
      (updateBayesianHistory env (created env h ms prev c) (victim h)) >>=
        fun h2 => .ok (some (victim h), h2) := by
  have hbp : prev < (baseStates env h (HubState.mk' A ms prev c h.hlen)).length :=
    Nat.lt_of_lt_of_le hp (length_le_baseStates _ _ _)
  obtain ⟨pst, hpst⟩ := exists_getElem?_of_lt hbp
  have hmax := hi.max_ge
  have hle := hi.le
  have hll := hi.last_lt
  by_cases h1 : h.states.length < h.max
  · have h1' : ¬ (h.max ≤ h.states.length) := by omega
    simp only [baseStates, if_pos h1] at hpst
    simp only [assignNew, if_neg h1', hpst, created, victim, if_pos h1, baseStates, addEdge]
  · have h1' : h.max ≤ h.states.length := by omega
    by_cases h2 : h.max ≤ h.last + 1
    · obtain ⟨st0, hst0⟩ := exists_getElem?_of_lt hi.pos
      have ok0 := hi.st 0 st0 hst0
      have e1 : initializeStart env h =
          .ok (some { h with states := clearAt env h.states 0 (startState env h) }) := by
        unfold initializeStart startState
        exact updateHubState_eq hf hst0 (by simp [ok0.ms]) (fun c k hk => ok0.target_lt hk)
      have h1lt : 1 < (clearAt env h.states 0 (startState env h)).length := by
        simp; omega
      obtain ⟨st1, hst1⟩ := exists_getElem?_of_lt h1lt
      have hst1' := hst1
      rw [clearAt_get hf _ hst0, List.getElem?_set] at hst1'
      simp only [show (0 : Nat) ≠ 1 by omega, if_false] at hst1'
      obtain ⟨st1o, hst1o, hst1e⟩ := Option.map_eq_some_iff.1 hst1'
      have ok1 := hi.st 1 st1o hst1o
      have hx : st1.modelStates = st1o.modelStates ∧ st1.nexts = st1o.nexts := by
        rw [← hst1e]; split <;> simp [HubState.resetPrev]
      have e2 : updateHubState env { h with states := clearAt env h.states 0 (startState env h) }
          1 ms prev c = .ok (some { h with
            states := (clearAt env (clearAt env h.states 0 (startState env h)) 1
              (HubState.mk' A ms prev c h.hlen)) }) := by
        refine updateHubState_eq hf hst1 ?_ ?_
        · rw [hx.1, ok1.ms, hms]
        · intro c k hk
          rw [hx.2] at hk
          simpa using ok1.target_lt hk
      simp only [baseStates, if_neg h1, if_pos h2] at hpst
      simp only [assignNew, if_pos h1', if_pos h2, e1, ok_bind, e2, hpst, created, victim,
        if_neg h1, baseStates, addEdge]
    · have hvlt : h.last + 1 < h.states.length := by omega
      obtain ⟨st1, hst1⟩ := exists_getElem?_of_lt hvlt
      have ok1 := hi.st _ st1 hst1
      have e2 : updateHubState env h (h.last + 1) ms prev c = .ok (some { h with
            states := (clearAt env h.states (h.last + 1) (HubState.mk' A ms prev c h.hlen)) }) :=
        updateHubState_eq hf hst1 (by rw [ok1.ms, hms]) (fun c k hk => ok1.target_lt hk)
      simp only [baseStates, if_neg h1, if_neg h2] at hpst
      simp only [assignNew, if_pos h1', if_neg h2, e2, ok_bind, hpst, created, victim,
        if_neg h1, baseStates, addEdge]

/-! ## pointwise description of the new table -/

/-- the content slot `i ≠ victim` keeps: itself, except that a wrap re-initialises slot 0 -/
def kept (env : Env A σ) (h : Hub A σ) (i : Nat) (st : HubState A.C) : HubState A.C :=
  if i = 0 ∧ wraps h then startState env h else st

/-- slot `i` is detached from its predecessor: it was a successor of the overwritten state, or of the
start state at a wrap -/
def Detached (h : Hub A σ) (i : Nat) : Prop :=
  h.max ≤ h.states.length ∧
  ((∃ vst, h.states[victim h]? = some vst ∧ i ∈ targets vst) ∨
   (wraps h ∧ ∃ st0, h.states[0]? = some st0 ∧ i ∈ targets st0))

/-- the old table's state at the victim slot has the victim slot among its successors -/
def VictimLoop (h : Hub A σ) : Prop :=
  h.max ≤ h.states.length ∧ ∃ vst, h.states[victim h]? = some vst ∧ victim h ∈ targets vst

theorem baseStates_victim {env : Env A σ} (hf : env.Fair) {h : Hub A σ} (hi : Inv h)
    (new : HubState A.C) :
    ∃ st', (baseStates env h new)[victim h]? = some st' ∧
      ((¬ VictimLoop h ∧ st' = new) ∨ (VictimLoop h ∧ st' = new.resetPrev)) := by
  have hmax := hi.max_ge
  have hle := hi.le
  have hll := hi.last_lt
  by_cases h1 : h.states.length < h.max
  · refine ⟨new, ?_, .inl ⟨?_, rfl⟩⟩
    · simp [baseStates, victim, h1]
    · rintro ⟨h', _⟩; omega
  · by_cases h2 : h.max ≤ h.last + 1
    · obtain ⟨st0, hst0⟩ := exists_getElem?_of_lt hi.pos
      have h1lt : 1 < h.states.length := by omega
      obtain ⟨v, hv⟩ := exists_getElem?_of_lt h1lt
      have hvict : victim h = 1 := by simp [victim, h1, h2]
      have hcv : (clearAt env h.states 0 (startState env h))[1]? =
          some (if 1 ∈ targets st0 then v.resetPrev else v) := by
        rw [clearAt_get hf _ hst0, List.getElem?_set]
        simp [hv]
      have htg : targets (if 1 ∈ targets st0 then v.resetPrev else v) = targets v := by
        split <;> rfl
      simp only [baseStates, if_neg h1, if_pos h2, hvict]
      rw [clearAt_get hf _ hcv, List.getElem?_set, htg]
      simp only [if_true, clearAt_length, h1lt, Option.map_some, Option.some.injEq, exists_eq_left']
      by_cases hl : 1 ∈ targets v
      · refine .inr ⟨⟨by omega, v, by rw [hvict]; exact hv, by rw [hvict]; exact hl⟩, by simp [hl]⟩
      · refine .inl ⟨?_, by simp [hl]⟩
        rintro ⟨_, v', hv', hl'⟩
        rw [hvict] at hv' hl'
        rw [hv] at hv'; cases hv'; exact hl hl'
    · have hvlt : h.last + 1 < h.states.length := by omega
      obtain ⟨v, hv⟩ := exists_getElem?_of_lt hvlt
      have hvict : victim h = h.last + 1 := by simp [victim, h1, h2]
      simp only [baseStates, if_neg h1, if_neg h2, hvict]
      rw [clearAt_get hf _ hv, List.getElem?_set]
      simp only [if_true, hvlt, Option.map_some, Option.some.injEq, exists_eq_left']
      by_cases hl : h.last + 1 ∈ targets v
      · refine .inr ⟨⟨by omega, v, by rw [hvict]; exact hv, by rw [hvict]; exact hl⟩, by simp [hl]⟩
      · refine .inl ⟨?_, by simp [hl]⟩
        rintro ⟨_, v', hv', hl'⟩
        rw [hvict] at hv' hl'
        rw [hv] at hv'; cases hv'; exact hl hl'

theorem baseStates_other {env : Env A σ} (hf : env.Fair) {h : Hub A σ} (hi : Inv h)
    (new : HubState A.C) {i : Nat} (hne : i ≠ victim h) {st : HubState A.C}
    (hst : h.states[i]? = some st) :
    ∃ st', (baseStates env h new)[i]? = some st' ∧
      ((¬ Detached h i ∧ st' = kept env h i st) ∨
       (Detached h i ∧ st' = (kept env h i st).resetPrev)) := by
  have hmax := hi.max_ge
  have hle := hi.le
  have hll := hi.last_lt
  have hilt := lt_of_getElem?_eq_some hst
  by_cases h1 : h.states.length < h.max
  · have hw : ¬ wraps h := fun w => by have := w.1; omega
    refine ⟨st, ?_, .inl ⟨?_, by simp [kept, hw]⟩⟩
    · rw [baseStates, if_pos h1, List.getElem?_append, if_pos hilt, hst]
    · rintro ⟨h', _⟩; omega
  · by_cases h2 : h.max ≤ h.last + 1
    · have hw : wraps h := ⟨by omega, h2⟩
      obtain ⟨st0, hst0⟩ := exists_getElem?_of_lt hi.pos
      have h1lt : 1 < h.states.length := by omega
      obtain ⟨v, hv⟩ := exists_getElem?_of_lt h1lt
      have hvict : victim h = 1 := by simp [victim, h1, h2]
      rw [hvict] at hne
      have hcv : (clearAt env h.states 0 (startState env h))[1]? =
          some (if 1 ∈ targets st0 then v.resetPrev else v) := by
        rw [clearAt_get hf _ hst0, List.getElem?_set]
        simp [hv]
      have htg : targets (if 1 ∈ targets st0 then v.resetPrev else v) = targets v := by
        split <;> rfl
      simp only [baseStates, if_neg h1, if_pos h2]
      rw [clearAt_get hf _ hcv, List.getElem?_set, htg,
        if_neg (show ¬ (1 = i) from fun e => hne e.symm),
        clearAt_get hf _ hst0, List.getElem?_set]
      have hk : (if 0 = i then if 0 < h.states.length then some (startState env h) else none
          else h.states[i]?) = some (kept env h i st) := by
        by_cases h0 : i = 0
        · subst h0; simp [kept, hw, hi.pos]
        · rw [if_neg (fun e => h0 e.symm), hst]; simp [kept, h0]
      rw [hk]
      simp only [Option.map_some, Option.some.injEq, exists_eq_left']
      have hd : Detached h i ↔ i ∈ targets v ∨ i ∈ targets st0 := by
        unfold Detached
        rw [hvict]
        constructor
        · rintro ⟨_, ⟨v', hv', ht⟩ | ⟨_, s', hs', ht⟩⟩
          · rw [hv] at hv'; cases hv'; exact .inl ht
          · rw [hst0] at hs'; cases hs'; exact .inr ht
        · rintro (ht | ht)
          · exact ⟨by omega, .inl ⟨v, hv, ht⟩⟩
          · exact ⟨by omega, .inr ⟨hw, st0, hst0, ht⟩⟩
      rw [hd]
      by_cases hA : i ∈ targets v <;> by_cases hB : i ∈ targets st0 <;>
        simp [hA, hB, HubState.resetPrev]
    · have hvlt : h.last + 1 < h.states.length := by omega
      have hw : ¬ wraps h := fun w => h2 w.2
      obtain ⟨v, hv⟩ := exists_getElem?_of_lt hvlt
      have hvict : victim h = h.last + 1 := by simp [victim, h1, h2]
      simp only [baseStates, if_neg h1, if_neg h2]
      rw [clearAt_get hf _ hv, List.getElem?_set, if_neg (fun e => hne (by rw [hvict]; exact e.symm)),
        hst]
      simp only [Option.map_some, Option.some.injEq, exists_eq_left', kept, hw, and_false, if_false]
      have hd : Detached h i ↔ i ∈ targets v := by
        unfold Detached
        rw [hvict]
        constructor
        · rintro ⟨_, ⟨v', hv', ht⟩ | ⟨w, _⟩⟩
          · rw [hv] at hv'; cases hv'; exact ht
          · exact absurd w hw
        · intro ht
          exact ⟨by omega, .inl ⟨v, hv, ht⟩⟩
      rw [hd]
      by_cases hA : i ∈ targets v <;> simp [hA]

theorem addEdge_get (states : List (HubState A.C)) (prev : Nat) (c : Int) (idx i : Nat) :
    (addEdge states prev c idx)[i]? =
      (states[i]?).map fun st => if i = prev then st.addNextState c idx else st := by
  unfold addEdge
  cases hp : states[prev]? with
  | none =>
    by_cases hip : i = prev
    · subst hip; simp [hp]
    · simp [hip]
  | some pst =>
    simp only [List.getElem?_set]
    by_cases hip : prev = i
    · subst hip
      rw [if_pos rfl, if_pos (lt_of_getElem?_eq_some hp), hp]
      simp
    · have : ¬ i = prev := fun e => hip e.symm
      simp [hip, this]

theorem addNextState_eq {st : HubState A.C} {c : Int} (hl : HubState.lookup st.nexts c = none)
    (k : Nat) : st.addNextState c k = { st with nexts := st.nexts ++ [(c, k)] } := by
  simp [HubState.addNextState, hl]

/-- The state in slot `i` of the table after a creation. -/
inductive After (env : Env A σ) (h : Hub A σ) (new : HubState A.C) (prev : Nat) (c : Int) :
    Nat → HubState A.C → Prop
  | victim (st' st'' : HubState A.C)
      (h1 : (¬ VictimLoop h ∧ st' = new) ∨ (VictimLoop h ∧ st' = new.resetPrev))
      (h2 : (victim h ≠ prev ∧ st'' = st') ∨
        (victim h = prev ∧ st'' = { st' with nexts := [(c, victim h)] })) :
      After env h new prev c (victim h) st''
  | other (i : Nat) (st st' st'' : HubState A.C) (hne : i ≠ victim h) (hst : h.states[i]? = some st)
      (h1 : (¬ Detached h i ∧ st' = kept env h i st) ∨
        (Detached h i ∧ st' = (kept env h i st).resetPrev))
      (h2 : (i ≠ prev ∧ st'' = st') ∨
        (i = prev ∧ st'' = { st' with nexts := st'.nexts ++ [(c, victim h)] })) :
      After env h new prev c i st''

theorem created_length (env : Env A σ) (h : Hub A σ) (ms : List Int) (prev : Nat) (c : Int) :
    (created env h ms prev c).states.length =
      if h.states.length < h.max then h.states.length + 1 else h.states.length := by
  simp [created, baseStates_length]

theorem kept_lookup {env : Env A σ} {h : Hub A σ} {i : Nat} {st : HubState A.C} {c : Int}
    (hl : HubState.lookup st.nexts c = none) :
    HubState.lookup (kept env h i st).nexts c = none := by
  unfold kept
  split
  · simp [startState, HubState.mk', HubState.lookup]
  · exact hl

theorem created_get {env : Env A σ} (hf : env.Fair) {h : Hub A σ} (hi : Inv h) {ms : List Int}
    {prev : Nat} {pst : HubState A.C} (hp : h.states[prev]? = some pst) {c : Int}
    (hl : HubState.lookup pst.nexts c = none) {i : Nat} {st : HubState A.C}
    (hst : (created env h ms prev c).states[i]? = some st) :
    After env h (HubState.mk' A ms prev c h.hlen) prev c i st := by
  simp only [created] at hst
  rw [addEdge_get] at hst
  obtain ⟨st', hst', rfl⟩ := Option.map_eq_some_iff.1 hst
  by_cases hiv : i = victim h
  · subst hiv
    obtain ⟨st1, hst1, hcase⟩ := baseStates_victim hf hi (HubState.mk' A ms prev c h.hlen)
    have e := hst'.symm.trans hst1; cases e
    refine .victim st' _ hcase ?_
    by_cases hvp : victim h = prev
    · refine .inr ⟨hvp, ?_⟩
      have : st'.nexts = [] := by
        rcases hcase with ⟨_, rfl⟩ | ⟨_, rfl⟩ <;> rfl
      rw [if_pos hvp, addNextState_eq (by rw [this]; rfl)]
      simp [this]
    · exact .inl ⟨hvp, by rw [if_neg hvp]⟩
  · have hlt : i < h.states.length := by
      have h1 := lt_of_getElem?_eq_some hst'
      rw [baseStates_length] at h1
      unfold victim at hiv
      split at h1
      · next hh => rw [if_pos hh] at hiv; omega
      · exact h1
    obtain ⟨ost, host⟩ := exists_getElem?_of_lt hlt
    obtain ⟨st1, hst1, hcase⟩ := baseStates_other hf hi (HubState.mk' A ms prev c h.hlen) hiv host
    have e := hst'.symm.trans hst1; cases e
    refine .other i ost st' _ hiv host hcase ?_
    by_cases hip : i = prev
    · subst hip
      refine .inr ⟨rfl, ?_⟩
      have e := host.symm.trans hp; cases e
      have hk := kept_lookup (env := env) (h := h) (i := i) hl
      rw [if_pos rfl, addNextState_eq]
      rcases hcase with ⟨_, rfl⟩ | ⟨_, rfl⟩
      · exact hk
      · exact hk
    · exact .inl ⟨hip, by rw [if_neg hip]⟩

theorem created_get_exists {env : Env A σ} (hf : env.Fair) {h : Hub A σ} (hi : Inv h) {ms : List Int}
    {prev : Nat} {pst : HubState A.C} (hp : h.states[prev]? = some pst) {c : Int}
    (hl : HubState.lookup pst.nexts c = none) :
    ∃ st, (created env h ms prev c).states[victim h]? = some st ∧ st.sym = c ∧
      (¬ VictimLoop h → st.prev = prev) := by
  have hlt : victim h < (created env h ms prev c).states.length := by
    simpa [created] using victim_lt hi env (HubState.mk' A ms prev c h.hlen)
  obtain ⟨st, hst⟩ := exists_getElem?_of_lt hlt
  refine ⟨st, hst, ?_⟩
  have := created_get hf hi hp hl hst
  generalize hg : victim h = v at this
  cases this with
  | victim st' st'' h1 h2 =>
    have a1 : st'.sym = c ∧ (¬ VictimLoop h → st'.prev = prev) := by
      rcases h1 with ⟨_, rfl⟩ | ⟨hv, rfl⟩
      · exact ⟨rfl, fun _ => rfl⟩
      · exact ⟨rfl, fun hn => absurd hv hn⟩
    rcases h2 with ⟨_, rfl⟩ | ⟨_, rfl⟩
    · exact a1
    · exact a1
  | other _ _ _ _ hne => exact absurd hg.symm hne

end Mozolm.Hub
