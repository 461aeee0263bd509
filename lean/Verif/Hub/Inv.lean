import Verif.Hub.Create

/-! # Hub: the table invariant is preserved by every call -/

namespace Mozolm.Hub
variable {A : Arith} {σ : Type}

/-- shape of the Bayesian history of a state -/
def HistShape (h : Hub A σ) (st : HubState A.C) : Prop :=
  0 < h.hlen → st.hist.length = h.models.length ∧ st.histSum.length = h.models.length ∧
    ∀ r ∈ st.hist, r.length = h.hlen

theorem Inv.congr {h h' : Hub A σ} (hi : Inv h) (hmax : h'.max = h.max) (hlast : h'.last = h.last)
    (hlen : h'.states.length = h.states.length) (hm : h'.models.length = h.models.length)
    (hst : ∀ (i : Nat) (st' : HubState A.C), h'.states[i]? = some st' → ∃ st : HubState A.C, h.states[i]? = some st ∧
      st'.nexts = st.nexts ∧ st'.sym = st.sym ∧ -1 ≤ st'.prev ∧
      st'.prev < (h.states.length : Int) ∧ st'.modelStates.length = h.models.length ∧
      HistShape h' st') : Inv h' := by
  refine ⟨by rw [hmax]; exact hi.max_ge, by rw [hmax, hlen]; exact hi.le,
    by rw [hlast, hlen]; exact hi.last_lt, by rw [hlast, hlen, hmax]; exact hi.grow, ?_⟩
  intro i st' hi'
  obtain ⟨st, h1, h2, h3, h4, h5, h6, h7⟩ := hst i st' hi'
  have ok := hi.st i st h1
  refine ⟨by rw [hm]; exact h6, h4, by rw [hlen]; exact h5, h7, ?_⟩
  intro c k hk
  rw [h2] at hk
  obtain ⟨a, b, o, kst, e1, e2⟩ := ok.edges c k hk
  refine ⟨a, b, by rw [hlast]; exact o, ?_⟩
  have hklt : k < h'.states.length := by rw [hlen]; exact lt_of_getElem?_eq_some e1
  obtain ⟨kst', hk'⟩ := exists_getElem?_of_lt hklt
  obtain ⟨st2, g1, _, g3, _⟩ := hst k kst' hk'
  rw [e1] at g1; cases g1
  exact ⟨kst', hk', g3.trans e2⟩

theorem Inv.setModels {h : Hub A σ} (hi : Inv h) {ms : List σ} (hm : ms.length = h.models.length) :
    Inv { h with models := ms } := by
  refine hi.congr rfl rfl rfl hm ?_
  intro i st' hst
  have ok := hi.st i st' hst
  exact ⟨st', hst, rfl, rfl, ok.prev_ge, ok.prev_lt, ok.ms, by
    unfold HistShape; simp only [hm]; exact ok.hist⟩

/-! ## creation -/

theorem edge_to_victim {h : Hub A σ} (hi : Inv h) {i : Nat} {st : HubState A.C}
    (hst : h.states[i]? = some st) {c : Int} (he : (c, victim h) ∈ st.nexts) :
    i = victim h ∨ (i = 0 ∧ wraps h) := by
  have ok := hi.st i st hst
  obtain ⟨_, hk1, ho, kst, hk, _⟩ := ok.edges c _ he
  have hklt := lt_of_getElem?_eq_some hk
  have hilt := lt_of_getElem?_eq_some hst
  have := hi.le
  have := hi.last_lt
  have := hi.max_ge
  unfold victim at *
  unfold wraps Older at *
  split at hklt
  · omega
  · next hn =>
    rw [if_neg hn] at ho ⊢
    split at ho
    · next hw => rw [if_pos hw]; omega
    · next hw => rw [if_neg hw]; omega

theorem kept_ne_start {env : Env A σ} {h : Hub A σ} {i : Nat} {st : HubState A.C}
    (hn : ¬ (i = 0 ∧ wraps h)) : kept env h i st = st := by simp [kept, hn]

theorem older_step {h : Hub A σ} (hi : Inv h) {i k : Nat} (hilt : i < h.states.length)
    (hklt : k < h.states.length) (hiv : i ≠ victim h) (hkv : k ≠ victim h)
    (hn : ¬ (i = 0 ∧ wraps h)) (ho : Older h.last i k) : Older (victim h) i k := by
  have := hi.le
  have := hi.last_lt
  have := hi.max_ge
  have := hi.grow
  unfold victim at *
  unfold wraps Older at *
  split
  · next hg => rw [if_pos hg] at hiv hkv; omega
  · next hg =>
    rw [if_neg hg] at hiv hkv
    split
    · next hw => rw [if_pos hw] at hiv hkv; omega
    · next hw => rw [if_neg hw] at hiv hkv; omega

theorem older_new {h : Hub A σ} (hi : Inv h) {prev : Nat} :
    Older (victim h) prev (victim h) := by
  have := hi.le
  have := hi.last_lt
  have := hi.max_ge
  have := victim_pos hi
  unfold Older
  omega

theorem mk'_hist {h : Hub A σ} {ms : List Int} (hms : ms.length = h.models.length) (p c : Int) :
    HistShape h (HubState.mk' A ms p c h.hlen) := by
  intro hp
  simp only [HubState.mk', initHist, if_pos hp, List.length_replicate, hms, true_and]
  intro r hr
  rw [(List.mem_replicate.1 hr).2]; simp

/-- What a slot other than the victim keeps across a creation. -/
theorem created_other {env : Env A σ} (hf : env.Fair) {h : Hub A σ} (hi : Inv h) {ms : List Int}
    {prev : Nat} {pst : HubState A.C} (hp : h.states[prev]? = some pst) {c : Int}
    (hl : HubState.lookup pst.nexts c = none) {i : Nat} {st : HubState A.C} (hne : i ≠ victim h)
    (hst : h.states[i]? = some st) :
    ∃ st', (created env h ms prev c).states[i]? = some st' ∧
      st'.sym = (kept env h i st).sym ∧ st'.modelStates = (kept env h i st).modelStates ∧
      st'.hist = (kept env h i st).hist ∧ st'.histSum = (kept env h i st).histSum ∧
      (st'.prev = -1 ∨ st'.prev = (kept env h i st).prev) ∧
      (¬ Detached h i → st'.prev = (kept env h i st).prev) ∧
      st'.nexts = (kept env h i st).nexts ++ (if i = prev then [(c, victim h)] else []) := by
  have hlt : i < (created env h ms prev c).states.length := by
    rw [created_length]
    have := lt_of_getElem?_eq_some hst
    split <;> omega
  obtain ⟨st', hst'⟩ := exists_getElem?_of_lt hlt
  refine ⟨st', hst', ?_⟩
  have hA := created_get hf hi hp hl hst'
  cases hA with
  | victim => exact absurd rfl hne
  | other i ost st1 st2 hne' host h1 h2 =>
    rw [hst] at host; cases host
    have a : st1.sym = (kept env h i st).sym ∧ st1.modelStates = (kept env h i st).modelStates ∧
      st1.hist = (kept env h i st).hist ∧ st1.histSum = (kept env h i st).histSum ∧
      (st1.prev = -1 ∨ st1.prev = (kept env h i st).prev) ∧
      (¬ Detached h i → st1.prev = (kept env h i st).prev) ∧
      st1.nexts = (kept env h i st).nexts := by
      rcases h1 with ⟨hd, rfl⟩ | ⟨hd, rfl⟩
      · exact ⟨rfl, rfl, rfl, rfl, .inr rfl, fun _ => rfl, rfl⟩
      · exact ⟨rfl, rfl, rfl, rfl, .inl rfl, fun hn => absurd hd hn, rfl⟩
    obtain ⟨a1, a2, a3, a4, a5, a6, a7⟩ := a
    rcases h2 with ⟨hne2, rfl⟩ | ⟨heq, rfl⟩
    · exact ⟨a1, a2, a3, a4, a5, a6, by simp [hne2, a7]⟩
    · exact ⟨a1, a2, a3, a4, a5, a6, by simp [heq, a7]⟩

/-- What the victim slot contains after a creation. -/
theorem created_new {env : Env A σ} (hf : env.Fair) {h : Hub A σ} (hi : Inv h) {ms : List Int}
    {prev : Nat} {pst : HubState A.C} (hp : h.states[prev]? = some pst) {c : Int}
    (hl : HubState.lookup pst.nexts c = none) :
    ∃ st', (created env h ms prev c).states[victim h]? = some st' ∧ st'.sym = c ∧
      st'.modelStates = ms ∧ st'.hist = (initHist A ms.length h.hlen).1 ∧
      st'.histSum = (initHist A ms.length h.hlen).2 ∧
      (st'.prev = -1 ∨ st'.prev = prev) ∧ (¬ VictimLoop h → st'.prev = prev) ∧
      st'.nexts = (if victim h = prev then [(c, victim h)] else []) := by
  have hlt : victim h < (created env h ms prev c).states.length := by
    simpa [created] using victim_lt hi env (HubState.mk' A ms prev c h.hlen)
  obtain ⟨st, hst⟩ := exists_getElem?_of_lt hlt
  refine ⟨st, hst, ?_⟩
  have := created_get hf hi hp hl hst
  generalize hg : victim h = v at this
  cases this with
  | victim st' st'' h1 h2 =>
    have a1 : st'.sym = c ∧ st'.modelStates = ms ∧ st'.hist = (initHist A ms.length h.hlen).1 ∧
        st'.histSum = (initHist A ms.length h.hlen).2 ∧
        (st'.prev = -1 ∨ st'.prev = prev) ∧ (¬ VictimLoop h → st'.prev = prev) ∧
        st'.nexts = [] := by
      rcases h1 with ⟨_, rfl⟩ | ⟨hv, rfl⟩
      · exact ⟨rfl, rfl, rfl, rfl, .inr rfl, fun _ => rfl, rfl⟩
      · exact ⟨rfl, rfl, rfl, rfl, .inl rfl, fun hn => absurd hv hn, rfl⟩
    obtain ⟨b1, b2, b3, b4, b5, b6, b7⟩ := a1
    rcases h2 with ⟨hne, rfl⟩ | ⟨he, rfl⟩
    · exact ⟨b1, b2, b3, b4, b5, b6, by rw [if_neg hne]; exact b7⟩
    · exact ⟨b1, b2, b3, b4, b5, b6, by rw [if_pos he]⟩
  | other _ _ _ _ hne => exact absurd hg.symm hne

theorem created_inv {env : Env A σ} (hf : env.Fair) {h : Hub A σ} (hi : Inv h) {ms : List Int}
    (hms : ms.length = h.models.length) {prev : Nat} {pst : HubState A.C}
    (hp : h.states[prev]? = some pst) {c : Int} (hc : 0 ≤ c)
    (hl : HubState.lookup pst.nexts c = none) : Inv (created env h ms prev c) := by
  have hplt := lt_of_getElem?_eq_some hp
  have hlen := created_length env h ms prev c
  have hle := hi.le
  have hmax := hi.max_ge
  have hvp := victim_pos hi
  have hvlt : victim h < (created env h ms prev c).states.length := by
    simpa [created] using victim_lt hi env (HubState.mk' A ms prev c h.hlen)
  obtain ⟨vst, hv1, hv2, hv3, hv4, hv5, hv6, hv7, hv8⟩ :=
    created_new (ms := ms) hf hi hp hl
  refine ⟨hmax, ?_, hvlt, ?_, ?_⟩
  · rw [hlen]; show _ ≤ h.max; split <;> omega
  · intro hg
    rw [hlen] at hg ⊢
    have hg : (if h.states.length < h.max then h.states.length + 1 else h.states.length) < h.max := hg
    show victim h + 1 = _
    split at hg
    · next hx => rw [if_pos hx]; simp [victim, hx]
    · omega
  · intro i st hst
    have hge : h.states.length ≤ (created env h ms prev c).states.length := by
      rw [hlen]; split <;> omega
    by_cases hiv : i = victim h
    · subst hiv
      rw [hv1] at hst; cases hst
      refine ⟨by rw [hv3]; exact hms, ?_, ?_, ?_, ?_⟩
      · rcases hv6 with e | e <;> omega
      · rcases hv6 with e | e <;> omega
      · intro hp'
        have := mk'_hist (h := h) hms prev c hp'
        rw [hv4, hv5]
        exact this
      · intro c' k hk
        rw [hv8] at hk
        split at hk
        · next he =>
          simp only [List.mem_singleton, Prod.mk.injEq] at hk
          obtain ⟨rfl, rfl⟩ := hk
          refine ⟨hc, hvp, ?_, vst, hv1, hv2⟩
          have := older_new hi (prev := prev)
          rw [← he] at this
          exact this
        · cases hk
    · have hilt : i < h.states.length := by
        have h1 := lt_of_getElem?_eq_some hst
        rw [hlen] at h1
        unfold victim at hiv
        split at h1
        · next hh => rw [if_pos hh] at hiv; omega
        · exact h1
      obtain ⟨ost, host⟩ := exists_getElem?_of_lt hilt
      have ok := hi.st i ost host
      obtain ⟨st', g1, g2, g3, g4, g5, g6, g7, g8⟩ :=
        created_other (env := env) (ms := ms) hf hi hp hl hiv host
      rw [hst] at g1; cases g1
      have hk : (kept env h i ost).modelStates.length = h.models.length ∧
          -1 ≤ (kept env h i ost).prev ∧ (kept env h i ost).prev < (h.states.length : Int) ∧
          HistShape h (kept env h i ost) := by
        unfold kept
        split
        · refine ⟨by simp [startState, HubState.mk'], by simp [startState, HubState.mk'], ?_, ?_⟩
          · simp only [startState, HubState.mk']; omega
          · exact mk'_hist (by simp) _ _
        · exact ⟨ok.ms, ok.prev_ge, ok.prev_lt, ok.hist⟩
      refine ⟨by rw [g3]; exact hk.1, ?_, ?_, ?_, ?_⟩
      · rcases g6 with e | e <;> omega
      · rcases g6 with e | e <;> omega
      · intro hp'
        have := hk.2.2.2 hp'
        rw [g4, g5]
        exact this
      · intro c' k hck
        rw [g8] at hck
        rcases List.mem_append.1 hck with hck | hck
        · have hns : ¬ (i = 0 ∧ wraps h) := by
            intro hw
            simp [kept, hw, startState, HubState.mk'] at hck
          rw [kept_ne_start hns] at hck
          obtain ⟨e1, e2, e3, kst, e4, e5⟩ := ok.edges c' k hck
          have hkv : k ≠ victim h := by
            intro e
            subst e
            rcases edge_to_victim hi host hck with h' | h'
            · exact hiv h'
            · exact hns h'
          obtain ⟨kst', f1, f2, _⟩ := created_other (env := env) (ms := ms) hf hi hp hl hkv e4
          refine ⟨e1, e2, older_step hi hilt (lt_of_getElem?_eq_some e4) hiv hkv hns e3, kst', f1, ?_⟩
          rw [f2, kept_ne_start (by omega)]
          exact e5
        · by_cases he : i = prev
          · subst he
            simp only [if_true, List.mem_singleton, Prod.mk.injEq] at hck
            obtain ⟨rfl, rfl⟩ := hck
            exact ⟨hc, hvp, older_new hi, vst, hv1, hv2⟩
          · simp [he] at hck

/-! ## Bayesian history -/

theorem histRow_ok {hist prev : List A.C} {lm : A.C} {n : Nat} (hn : 0 < n) (h1 : hist.length = n)
    (h2 : prev.length = n) :
    HubState.histRow A hist lm prev = .ok (prev.tail ++ [lm], prev.tail.foldl A.times lm) := by
  cases hist with
  | nil => simp at h1; omega
  | cons a as =>
    simp only [HubState.histRow]
    rw [if_pos (by omega)]
    congr 2
    simp only [List.append_cancel_left_eq]
    have hd : prev.tail.length = (a :: as).dropLast.length := by
      simp only [List.length_tail, List.length_dropLast]; omega
    rw [hd, List.drop_append_of_le_length (Nat.le_refl _)]
    simp

theorem histRows_ok {n : Nat} (hn : 0 < n) :
    ∀ (lms : List A.C) (hs : List (List A.C)) (ss : List A.C) (ps : List (List A.C)),
    hs.length = lms.length → ss.length = lms.length → ps.length = lms.length →
    (∀ r ∈ hs, r.length = n) → (∀ r ∈ ps, r.length = n) →
    HubState.histRows A lms hs ss ps =
      .ok (List.zipWith (fun lm p => p.tail ++ [lm]) lms ps,
           List.zipWith (fun lm p => p.tail.foldl A.times lm) lms ps)
  | [], hs, ss, ps, h1, h2, h3, _, _ => by
    cases hs with
    | cons _ _ => simp at h1
    | nil =>
      cases ss with
      | cons _ _ => simp at h2
      | nil => simp [HubState.histRows]
  | lm :: lms, [], _, _, h1, _, _, _, _ => by simp at h1
  | lm :: lms, h :: hs, [], _, _, h2, _, _, _ => by simp at h2
  | lm :: lms, h :: hs, s :: ss, [], _, _, h3, _, _ => by simp at h3
  | lm :: lms, h :: hs, s :: ss, p :: ps, h1, h2, h3, h4, h5 => by
    have ih := histRows_ok hn lms hs ss ps (by simpa using h1) (by simpa using h2)
      (by simpa using h3) (fun r hr => h4 r (by simp [hr])) (fun r hr => h5 r (by simp [hr]))
    have hr := histRow_ok (A := A) (lm := lm) hn (h4 h (by simp)) (h5 p (by simp))
    simp [HubState.histRows, hr, ih]

/-- Closed form of `UpdateBayesianHistory` on a valid table. -/
def bayesed (env : Env A σ) (h : Hub A σ) (s : Nat) : Hub A σ :=
  if h.hlen = 0 then h
  else match h.states[s]? with
    | none => h
    | some st =>
      if st.prev < 0 then h
      else match h.states[st.prev.toNat]? with
        | none => h
        | some pst =>
          let r := scoreAll env.toLMOps pst st.sym 0 h.models
          { h with
            states := h.states.set s { st with
              hist := List.zipWith (fun lm p => p.tail ++ [lm]) r.1 pst.hist
              histSum := List.zipWith (fun lm p => p.tail.foldl A.times lm) r.1 pst.hist }
            models := r.2 }

theorem bayes_eq {env : Env A σ} {h : Hub A σ} (hi : Inv h) {s : Nat} (hs : s < h.states.length) :
    updateBayesianHistory env h s = .ok (bayesed env h s) := by
  unfold updateBayesianHistory bayesed
  split
  · rfl
  · next hl =>
    have hl : 0 < h.hlen := Nat.pos_of_ne_zero hl
    obtain ⟨st, hst⟩ := exists_getElem?_of_lt hs
    have ok := hi.st s st hst
    simp only [hst]
    split
    · rfl
    · next hp =>
      have hpl : st.prev.toNat < h.states.length := by have := ok.prev_lt; omega
      obtain ⟨pst, hpst⟩ := exists_getElem?_of_lt hpl
      have okp := hi.st _ pst hpst
      simp only [hpst]
      have a := ok.hist hl
      have b := okp.hist hl
      rw [histRows_ok hl]
      · rw [scoreAll_length]; exact a.1
      · rw [scoreAll_length]; exact a.2.1
      · rw [scoreAll_length]; exact b.1
      · exact a.2.2
      · exact b.2.2

/-- What `bayesed` does not change. -/
structure Frame (env : Env A σ) (h h' : Hub A σ) : Prop where
  max : h'.max = h.max
  last : h'.last = h.last
  weights : h'.weights = h.weights
  hlen : h'.hlen = h.hlen
  ghost : h'.selfRecycled = h.selfRecycled
  models : Touches env.toLMOps h.models h'.models
  len : h'.states.length = h.states.length
  st : ∀ (i : Nat) (st' : HubState A.C), h'.states[i]? = some st' → ∃ st : HubState A.C, h.states[i]? = some st ∧
    st'.nexts = st.nexts ∧ st'.sym = st.sym ∧ st'.prev = st.prev ∧ st'.modelStates = st.modelStates

theorem Frame.refl (env : Env A σ) (h : Hub A σ) : Frame env h h :=
  ⟨rfl, rfl, rfl, rfl, rfl, Touches.refl _ _, rfl, fun _ st' h => ⟨st', h, rfl, rfl, rfl, rfl⟩⟩

theorem Frame.trans {env : Env A σ} {a b c : Hub A σ} (h : Frame env a b) (h' : Frame env b c) :
    Frame env a c := by
  refine ⟨h'.max.trans h.max, h'.last.trans h.last, h'.weights.trans h.weights,
    h'.hlen.trans h.hlen, h'.ghost.trans h.ghost, h.models.trans h'.models, h'.len.trans h.len, ?_⟩
  intro i st hst
  obtain ⟨s1, e1, e2, e3, e4, e5⟩ := h'.st i st hst
  obtain ⟨s2, f1, f2, f3, f4, f5⟩ := h.st i s1 e1
  exact ⟨s2, f1, e2.trans f2, e3.trans f3, e4.trans f4, e5.trans f5⟩

theorem Frame.symm_st {env : Env A σ} {h h' : Hub A σ} (hf : Frame env h h') {i : Nat}
    {st : HubState A.C} (hst : h.states[i]? = some st) : ∃ st', h'.states[i]? = some st' ∧
    st'.nexts = st.nexts ∧ st'.sym = st.sym ∧ st'.prev = st.prev ∧
    st'.modelStates = st.modelStates := by
  have : i < h'.states.length := by rw [hf.len]; exact lt_of_getElem?_eq_some hst
  obtain ⟨st', e⟩ := exists_getElem?_of_lt this
  obtain ⟨s, f, g⟩ := hf.st i st' e
  rw [hst] at f; cases f
  exact ⟨st', e, g⟩

theorem bayesed_frame (env : Env A σ) (h : Hub A σ) (s : Nat) : Frame env h (bayesed env h s) := by
  unfold bayesed
  split
  · exact Frame.refl _ _
  · split
    · exact Frame.refl _ _
    · next st hst =>
      split
      · exact Frame.refl _ _
      · split
        · exact Frame.refl _ _
        · next pst hpst =>
          refine ⟨rfl, rfl, rfl, rfl, rfl, scoreAll_touches _ _ _ _ _, by simp, ?_⟩
          intro i st' hst'
          simp only [List.getElem?_set] at hst'
          split at hst'
          · next e =>
            subst e
            simp only [lt_of_getElem?_eq_some hst, if_true, Option.some.injEq] at hst'
            subst hst'
            exact ⟨st, hst, rfl, rfl, rfl, rfl⟩
          · exact ⟨st', hst', rfl, rfl, rfl, rfl⟩

theorem bayesed_inv {env : Env A σ} {h : Hub A σ} (hi : Inv h) (s : Nat) :
    Inv (bayesed env h s) := by
  have hf := bayesed_frame env h s
  refine hi.congr hf.max hf.last hf.len hf.models.length_eq.symm ?_
  intro i st' hst'
  obtain ⟨st, e1, e2, e3, e4, e5⟩ := hf.st i st' hst'
  have ok := hi.st i st e1
  refine ⟨st, e1, e2, e3, by rw [e4]; exact ok.prev_ge, by rw [e4]; exact ok.prev_lt,
    by rw [e5]; exact ok.ms, ?_⟩
  intro hl
  rw [hf.hlen] at hl ⊢
  rw [← hf.models.length_eq]
  -- the history is either unchanged or the zipped one
  have hold := ok.hist hl
  revert hst'
  unfold bayesed
  split
  · intro hst'; rw [e1] at hst'; cases hst'; exact hold
  · split
    · intro hst'; rw [e1] at hst'; cases hst'; exact hold
    · next sst hsst =>
      split
      · intro hst'; rw [e1] at hst'; cases hst'; exact hold
      · split
        · intro hst'; rw [e1] at hst'; cases hst'; exact hold
        · next pst hpst =>
          have okp := (hi.st _ pst hpst).hist hl
          simp only [List.getElem?_set]
          split
          · next e =>
            subst e
            simp only [lt_of_getElem?_eq_some hsst, if_true, Option.some.injEq]
            rintro rfl
            refine ⟨?_, ?_, ?_⟩
            · simp [scoreAll_length, okp.1]
            · simp [scoreAll_length, okp.1]
            · intro r hr
              simp only at hr
              obtain ⟨j, hj1, hj2⟩ := List.getElem_of_mem hr
              rw [← hj2]
              simp only [List.getElem_zipWith, List.length_append, List.length_tail,
                List.length_singleton]
              have hx : j < pst.hist.length := by
                simp only [List.length_zipWith] at hj1; omega
              have := okp.2.2 (pst.hist[j]) (List.getElem_mem hx)
              omega
          · intro hst'; rw [e1] at hst'; cases hst'; exact hold

end Mozolm.Hub
