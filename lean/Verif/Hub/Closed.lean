import Verif.Hub.Path

/-! # Hub: components are only asked about states they produced -/

namespace Mozolm.Hub
variable {A : Arith} {σ : Type} {env : Env A σ}

/-- `ok m s`: `s` is a state of the component `m`.  A component's states are closed under its own
operations: the start state is one, the successor of one is one, and no operation invalidates any. -/
structure LMOps.Closed (ops : LMOps A σ) (ok : σ → Int → Prop) : Prop where
  start : ∀ m, ok m (ops.start m)
  next : ∀ m s c, ok m s → 0 ≤ c → ok (ops.next m s c).2 (ops.next m s c).1
  keep_next : ∀ m s c x, ok m x → ok (ops.next m s c).2 x
  keep_extract : ∀ m s x, ok m x → ok (ops.extract m s).2 x
  keep_score : ∀ m s c x, ok m x → ok (ops.symScore m s c).2 x
  keep_update : ∀ m s cs n x, ok m x → ok (ops.update m s cs n).2 x

theorem LMOps.Closed.touch {ops : LMOps A σ} {ok : σ → Int → Prop} (hc : ops.Closed ok) {a b : σ}
    (h : TouchU ops a b) {x : Int} (hx : ok a x) : ok b x := by
  induction h with
  | refl => exact hx
  | next s c _ ih => exact hc.keep_next _ _ _ _ ih
  | extract s _ ih => exact hc.keep_extract _ _ _ ih
  | score s c _ ih => exact hc.keep_score _ _ _ _ ih
  | update s cs n _ ih => exact hc.keep_update _ _ _ _ _ ih

/-- every component state stored in the table is a state of its component -/
def AllOK (ok : σ → Int → Prop) (h : Hub A σ) : Prop :=
  ∀ (i : Nat) (st : HubState A.C), h.states[i]? = some st →
    ∀ (j : Nat) (m : σ), h.models[j]? = some m → ok m (st.modelState j)

theorem Pointwise.get' {α β : Type} {R : α → β → Prop} {l : List α} {l' : List β}
    (h : Pointwise R l l') {j : Nat} {b : β} (hb : l'[j]? = some b) :
    ∃ a, l[j]? = some a ∧ R a b := by
  induction h generalizing j with
  | nil => simp at hb
  | cons r _ ih =>
    cases j with
    | zero =>
      simp only [List.getElem?_cons_zero, Option.some.injEq] at hb ⊢
      subst hb; exact ⟨_, rfl, r⟩
    | succ j => simp only [List.getElem?_cons_succ] at hb ⊢; exact ih hb

theorem nextAll_get (ops : LMOps A σ) (st : HubState A.C) (c : Int) (i : Nat) (ms : List σ)
    {j : Nat} {m' : σ} (h : (nextAll ops st c i ms).2[j]? = some m') :
    ∃ m, ms[j]? = some m ∧ m' = (ops.next m (st.modelState (i + j)) c).2 ∧
      (nextAll ops st c i ms).1[j]? = some (ops.next m (st.modelState (i + j)) c).1 := by
  induction ms generalizing i j with
  | nil => simp [nextAll] at h
  | cons m ms ih =>
    cases j with
    | zero =>
      simp only [nextAll, List.getElem?_cons_zero, Option.some.injEq] at h ⊢
      exact ⟨m, rfl, h.symm, rfl⟩
    | succ j =>
      simp only [nextAll, List.getElem?_cons_succ] at h ⊢
      obtain ⟨m1, e1, e2, e3⟩ := ih (i + 1) h
      have : i + 1 + j = i + (j + 1) := by omega
      rw [this] at e2 e3
      exact ⟨m1, e1, e2, e3⟩

theorem AllOK.frame {ok : σ → Int → Prop} (hc : env.toLMOps.Closed ok) {h h' : Hub A σ}
    (ha : AllOK ok h) (f : Frame env h h') : AllOK ok h' := by
  intro i st hst j m hm
  obtain ⟨st0, e1, _, _, _, e5⟩ := f.st i st hst
  obtain ⟨m0, m1, m2⟩ := Pointwise.get' f.models hm
  have := ha i st0 e1 j m0 m1
  have hms : st.modelState j = st0.modelState j := by simp [HubState.modelState, e5]
  rw [hms]
  exact hc.touch m2.toU this

theorem AllOK.models {ok : σ → Int → Prop} (hc : env.toLMOps.Closed ok) {h : Hub A σ}
    (ha : AllOK ok h) {ms : List σ} (ht : TouchesU env.toLMOps h.models ms) :
    AllOK ok { h with models := ms } := by
  intro i st hst j m hm
  obtain ⟨m0, m1, m2⟩ := Pointwise.get' ht hm
  exact hc.touch m2 (ha i st hst j m0 m1)

theorem allOK_preserved (hf : env.Fair) {ok : σ → Int → Prop} (hc : env.toLMOps.Closed ok) :
    Preserved env (AllOK ok) (fun _ h => AllOK ok h) where
  models h ms hi ha ht := ha.models hc ht
  create h s st c hi ha hst hl hc0 := by
    have ht := nextAll_touches env.toLMOps st c 0 h.models
    have hi' := hi.setModels ht.length_eq.symm
    intro i ist hist j m hm
    by_cases hv : i = victim { h with models := (nextAll env.toLMOps st c 0 h.models).2 }
    · obtain ⟨vst, e1, _, e3, _⟩ := created_new (env := env)
        (ms := (nextAll env.toLMOps st c 0 h.models).1) hf hi' hst hl
      rw [hv] at hist
      have hist' : (created env { h with models := (nextAll env.toLMOps st c 0 h.models).2 }
        (nextAll env.toLMOps st c 0 h.models).1 s c).states[victim { h with
          models := (nextAll env.toLMOps st c 0 h.models).2 }]? = some ist := hist
      rw [e1] at hist'; cases hist'
      obtain ⟨m0, f1, f2, f3⟩ := nextAll_get env.toLMOps st c 0 h.models (j := j) (m' := m) hm
      have : ist.modelState j = (env.next m0 (st.modelState (0 + j)) c).1 := by
        simp [HubState.modelState, e3, f3]
      rw [this, f2]
      have h2 := ha s st hst j m0 f1
      simp only [Nat.zero_add]
      exact hc.next m0 _ c h2 hc0
    · have hlt := slot_lt hv (lt_of_getElem?_eq_some hist)
      obtain ⟨ost, host⟩ := exists_getElem?_of_lt hlt
      obtain ⟨st', e1, _, e3, _⟩ := created_other (env := env)
        (ms := (nextAll env.toLMOps st c 0 h.models).1) hf hi' hst hl hv host
      have hist' : (created env { h with models := (nextAll env.toLMOps st c 0 h.models).2 }
        (nextAll env.toLMOps st c 0 h.models).1 s c).states[i]? = some ist := hist
      rw [e1] at hist'; cases hist'
      have hm' : (nextAll env.toLMOps st c 0 h.models).2[j]? = some m := hm
      unfold kept at e3
      split at e3
      · have : ist.modelState j = env.start m := by
          simp [HubState.modelState, e3, startState, HubState.mk', hm']
        rw [this]; exact hc.start m
      · have : ist.modelState j = ost.modelState j := by simp [HubState.modelState, e3]
        rw [this]
        exact (ha.models hc ht.toU) i ost host j m hm'
  pend h s hi hs ha := ha.frame hc (bayesed_frame env h s)
  hist h s hi hs ha := ha.frame hc (bayesed_frame env h s)
  verify h s k st kst c hi ha hst hl hk hp hsym := by
    have ht := nextAll_touches env.toLMOps st c 0 h.models
    have hc0 := ((hi.st s st hst).edges c k (lookup_mem hl)).1
    intro i ist hist j m hm
    have hm' : (nextAll env.toLMOps st c 0 h.models).2[j]? = some m := hm
    simp only [verified, List.getElem?_set] at hist
    split at hist
    · next e =>
      subst e
      rw [if_pos (lt_of_getElem?_eq_some hk)] at hist
      cases hist
      obtain ⟨m0, f1, f2, f3⟩ := nextAll_get env.toLMOps st c 0 h.models (j := j) (m' := m) hm'
      simp only [HubState.modelState, f3]
      rw [f2]
      simp only [Nat.zero_add]
      exact hc.next m0 _ c (ha s st hst j m0 f1) hc0
    · exact (ha.models hc ht.toU) i ist hist j m hm'

theorem initial_allOK {ok : σ → Int → Prop} (hc : env.toLMOps.Closed ok) (models : List σ)
    (ws : List A.C) (hlen max : Nat) : AllOK ok (initial env models ws hlen max) := by
  intro i st hst j m hm
  cases i with
  | zero =>
    simp only [initial, List.getElem?_cons_zero, Option.some.injEq] at hst hm
    subst hst
    simp only [HubState.modelState, HubState.mk', List.getElem?_map, hm, Option.map_some]
    exact hc.start m
  | succ i => simp [initial] at hst

/-- Each component accepts updates and answers queries at its own states. -/
structure LMOps.Accepts (ops : LMOps A σ) (ok : σ → Int → Prop) : Prop where
  extract : ∀ m s, ok m s → (ops.extract m s).1 ≠ none
  update : ∀ m s cs n, ok m s → (ops.update m s cs n).1 = true

theorem updateLoop_accepts {ok : σ → Int → Prop} (hu : env.toLMOps.Accepts ok) {st : HubState A.C}
    {cs : List Int} {n : Int} :
    ∀ (i : Nat) (ws : List A.C) (ms : List σ) (b : Bool) (ms' : List σ),
    (∀ (j : Nat) (m : σ), ms[j]? = some m → ok m (st.modelState (i + j))) →
    updateLoop env st cs n i ws ms = .ok (b, ms') → b = true
  | i, [], ms, b, ms', _, h => by
    simp only [updateLoop, Except.ok.injEq, Prod.mk.injEq] at h
    exact h.1.symm
  | i, w :: ws, [], b, ms', _, h => by simp [updateLoop] at h
  | i, w :: ws, m :: ms, b, ms', ho, h => by
    simp only [updateLoop] at h
    split at h
    · next m' e =>
      have := hu.update m (st.modelState i) cs n (ho 0 m rfl); rw [e] at this; cases this
    · obtain ⟨⟨b2, ms2⟩, e2, e3⟩ := bind_ok.1 h
      simp only [Except.ok.injEq, Prod.mk.injEq] at e3
      obtain ⟨rfl, _⟩ := e3
      refine updateLoop_accepts hu _ _ _ _ _ (fun j mj hj => ?_) e2
      have := ho (j + 1) mj (by simpa using hj)
      have e : i + 1 + j = i + (j + 1) := by omega
      rw [e]; exact this

theorem extractLoop_accepts {ok : σ → Int → Prop} (hu : env.toLMOps.Accepts ok)
    {st : HubState A.C} :
    ∀ (i : Nat) (ws : List A.C) (ms : List σ) (acc : List (Str × A.C)) (norm : A.D) r ms',
    (∀ (j : Nat) (m : σ), ms[j]? = some m → ok m (st.modelState (i + j))) →
    extractLoop env st i ws ms acc norm = .ok (r, ms') → r ≠ none
  | i, [], ms, acc, norm, r, ms', _, h => by
    simp only [extractLoop, Except.ok.injEq, Prod.mk.injEq] at h
    rw [← h.1]; simp
  | i, w :: ws, [], acc, norm, r, ms', _, h => by simp [extractLoop] at h
  | i, w :: ws, m :: ms, acc, norm, r, ms', ho, h => by
    simp only [extractLoop] at h
    split at h
    · next m' e =>
      have := hu.extract m (st.modelState i) (ho 0 m rfl); rw [e] at this; simp at this
    · obtain ⟨mr, _, h⟩ := bind_ok.1 h
      obtain ⟨⟨r2, ms2⟩, e2, h⟩ := bind_ok.1 h
      simp only [Except.ok.injEq, Prod.mk.injEq] at h
      rw [← h.1]
      refine extractLoop_accepts hu _ _ _ _ _ _ _ (fun j mj hj => ?_) e2
      have := ho (j + 1) mj (by simpa using hj)
      have e : i + 1 + j = i + (j + 1) := by omega
      rw [e]; exact this

theorem extract_accepts {ok : σ → Int → Prop} (hu : env.toLMOps.Accepts ok) {h h' : Hub A σ}
    (ha : AllOK ok h) {s : Int} (hv : h.valid s = true) {r : Option (LMScores A.D)}
    (he : extractLMScores env h s = .ok (r, h')) : r ≠ none := by
  simp only [extractLMScores, hv, Bool.not_true, Bool.false_eq_true, if_false] at he
  split at he
  · cases he
  · next st hst =>
    split at he
    · split at he
      · cases he
      · next m ms hm =>
        simp only [Except.ok.injEq, Prod.mk.injEq] at he
        rw [← he.1]
        exact hu.extract m _ (ha _ st hst 0 m (by rw [hm]; rfl))
    · obtain ⟨ws, _, he⟩ := bind_ok.1 he
      obtain ⟨⟨x, ms⟩, e2, he⟩ := bind_ok.1 he
      have := extractLoop_accepts hu 0 ws h.models [] _ x ms
        (fun j m hm => by rw [Nat.zero_add]; exact ha _ st hst j m hm) e2
      cases x with
      | none => exact absurd rfl this
      | some p =>
        simp only [Except.ok.injEq, Prod.mk.injEq] at he
        rw [← he.1]; simp

end Mozolm.Hub
