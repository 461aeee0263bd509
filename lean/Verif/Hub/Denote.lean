import Verif.Hub.Static
import Verif.Hub.Spec

/-! # Hub: a state denotes its context (static components) -/

namespace Mozolm.Hub
variable {A : Arith} {σ : Type}
variable {env : Env A σ} {view : σ → Int → Int → Int} {cost : σ → Int → Int → A.C}

theorem denotes_preserved (hf : env.Fair) (hs : env.toLMOps.Static view cost) :
    Preserved env (Denotes env view cost none) (fun k h => Denotes env view cost (some k) h) where
  models h ms hi hd ht := hd.setModels hs ht
  create h s st c hi hd hst hl hc := created_denotes hf hs hi hd hst hc hl
  pend h s hi hlt hd := bayesed_denotes hs hi hlt (.inr rfl) hd
  hist h s hi hlt hd := bayesed_denotes hs hi hlt (.inl rfl) hd
  verify h s k st kst c hi hd hst hl hk hp hc := by
    have ht := nextAll_touches env.toLMOps st c 0 h.models
    have hms : (nextAll env.toLMOps st c 0 h.models).1 =
        stepAll (h.models.map view) st.modelStates c :=
      nextAll_static hs st c h.models 0 st.modelStates rfl (hi.st s st hst).ms
    have hk0 : k ≠ 0 := by
      have := ((hi.st s st hst).edges c k (lookup_mem hl)).2.1; omega
    refine ⟨(linked_preserved hf).verify h s k st kst c hi hd.linked hst hl hk hp hc,
      (start_preserved hf hs.start).verify h s k st kst c hi hd.start hst hl hk hp hc, ?_, by simp, ?_,
      (backLinked_preserved hf).verify h s k st kst c hi hd.back hst hl hk hp hc⟩
    · intro hpos st0 h0
      simp only [verified, List.getElem?_set, if_neg hk0] at h0
      have := hd.startHist hpos st0 h0
      simp only [verified, ← ht.length_eq]
      exact this
    · intro hg
      have hg0 : h.selfRecycled = false := hg
      have he := hd.edge hg0 s st hst c k (lookup_mem hl) kst hk
      have hset : { kst with modelStates := (nextAll env.toLMOps st c 0 h.models).1 } = kst := by
        rw [hms, ← he.1]
      have hv : verified env h st c k kst =
          { h with models := (nextAll env.toLMOps st c 0 h.models).2 } := by
        simp only [verified, hset, set_self hk]
      rw [hv]
      exact (hd.setModels hs ht.toU).edge hg0

theorem initial_denotes (models : List σ) (ws : List A.C) (hlen max : Nat) :
    Denotes env view cost none (initial env models ws hlen max) := by
  have h0 : ∀ (i : Nat) st, (initial env models ws hlen max).states[i]? = some st →
      st = HubState.mk' A (models.map env.start) (-1) 0 hlen := by
    intro i st hst
    cases i with
    | zero => simp only [initial, List.getElem?_cons_zero, Option.some.injEq] at hst; exact hst.symm
    | succ i => simp [initial] at hst
  refine ⟨?_, ⟨_, rfl, rfl, rfl, rfl⟩, ?_, by simp, ?_, ?_⟩
  · intro _ i st hst c k hck
    rw [h0 i st hst] at hck; simp [HubState.mk'] at hck
  · intro _ st hst
    rw [h0 0 st hst]
    simp [HubState.mk', initial]
  · intro _ i st hst c k hck
    rw [h0 i st hst] at hck; simp [HubState.mk'] at hck
  · intro _ i st hst p hp
    rw [h0 i st hst] at hp
    simp only [HubState.mk'] at hp
    omega

/-- the slot `NextState` starts from keeps its component states and history -/
theorem NextOut.source_same (hf : env.Fair) (hs : env.toLMOps.Static view cost) {h h' : Hub A σ}
    (hi : Inv h) (hd : Denotes env view cost none h) {s c r : Int} (ho : NextOut env h s c r h')
    (hg : h'.selfRecycled = false) {st : HubState A.C} (hst : h.states[source h s]? = some st) :
    ∃ sst : HubState A.C, h'.states[source h s]? = some sst ∧ sst.modelStates = st.modelStates ∧
      (0 < h.hlen → sst.hist = st.hist) := by
  cases ho with
  | bad => exact ⟨st, hst, rfl, fun _ => rfl⟩
  | cached => exact ⟨st, hst, rfl, fun _ => rfl⟩
  | new hc st' hst' hk =>
    rw [hst] at hst'; cases hst'
    have ht := nextAll_touches env.toLMOps st c 0 h.models
    have hi' := hi.setModels ht.length_eq.symm
    have hfr := bayesed_frame env (createdFrom env h (source h s) st c) (victim h)
    have hg' : h.selfRecycled = false ∧ victim h ≠ source h s := by
      rw [hfr.ghost] at hg
      simp only [createdFrom, created, Bool.or_eq_false_iff, beq_eq_false_iff_ne] at hg
      exact hg
    have hne : source h s ≠ victim h := fun e => hg'.2 e.symm
    obtain ⟨sst, s1, _, s3, s4, _⟩ := created_other (env := env)
      (ms := (nextAll env.toLMOps st c 0 h.models).1) hf hi' hst hk hne hst
    have s1 : (createdFrom env h (source h s) st c).states[source h s]? = some sst := s1
    obtain ⟨sst', t1, _, _, _, t5⟩ := hfr.symm_st s1
    have hkept : sst.modelStates = st.modelStates ∧ (0 < h.hlen → sst.hist = st.hist) := by
      rw [s3, s4]
      unfold kept
      split
      · next hw =>
        have hw0 : source h s = 0 := hw.1
        rw [hw0] at hst
        obtain ⟨st0, a1, a2, _⟩ := hd.start
        rw [hst] at a1; cases a1
        refine ⟨?_, fun hp => ?_⟩
        · rw [a2]
          exact (hs.start.touches ht.toU).symm
        · rw [(hd.startHist hp st hst).1]
          simp only [startState, HubState.mk', List.length_map]
          rw [← ht.length_eq]
      · exact ⟨rfl, fun _ => rfl⟩
    refine ⟨sst', t1, t5.trans hkept.1, fun hp => ?_⟩
    rw [← hkept.2 hp]
    -- the history update touches the victim only
    have : (bayesed env (createdFrom env h (source h s) st c) (victim h)).states[source h s]? =
        (createdFrom env h (source h s) st c).states[source h s]? := by
      generalize createdFrom env h (source h s) st c = h1
      unfold bayesed
      split
      · rfl
      · split
        · rfl
        · split
          · rfl
          · split
            · rfl
            · simp only [List.getElem?_set, if_neg hg'.2]
    rw [t1, s1] at this
    cases this; rfl

/-- One transition, cached or new: the state reached has the successors of the component states. -/
theorem NextOut.denotes (hf : env.Fair) (hs : env.toLMOps.Static view cost) {h h' : Hub A σ}
    (hi : Inv h) (hd : Denotes env view cost none h) {s c r : Int} (ho : NextOut env h s c r h')
    (hc : 0 ≤ c) (hg : h'.selfRecycled = false) {st : HubState A.C}
    (hst : h.states[source h s]? = some st) :
    ∃ (k : Nat) (rst : HubState A.C), r = k ∧ h'.states[k]? = some rst ∧
      rst.modelStates = stepAll (h.models.map view) st.modelStates c ∧
      (0 < h.hlen → rst.hist = histStep A (costAll (h.models.map cost) st.modelStates c) st.hist ∧
        rst.histSum = histSumStep A (costAll (h.models.map cost) st.modelStates c) st.hist) := by
  have g := ho.good hf hi
  have hd' := g.pres _ _ (denotes_preserved hf hs) hd
  obtain ⟨k, rfl, _, _, ⟨kst, k1, _⟩, sst, s1, s2⟩ := ho.range hf hi hc
  obtain ⟨sst', t1, t2, t3⟩ := ho.source_same hf hs hi hd hg hst
  rw [s1] at t1; cases t1
  have he := hd'.edge hg _ sst s1 c k (lookup_mem s2) kst k1
  rw [← hs.views g.const.models, ← hs.costs g.const.models, t2, g.const.hlen] at he
  refine ⟨k, kst, rfl, k1, he.1, fun hp => ?_⟩
  have := he.2.2 hp (by simp)
  rw [t3 hp] at this
  exact this

/-- the content of slot `s` is that reached by `done` from the start states of `models0` -/
def At (view : σ → Int → Int → Int) (cost : σ → Int → Int → A.C) (start : σ → Int)
    (models0 : List σ) (hlen : Nat) (done : List Int) (st : HubState A.C) : Prop :=
  ∀ (j : Nat) (m : σ), models0[j]? = some m →
    st.modelStates[j]? = some (pathState (view m) (start m) done) ∧
    (0 < hlen → st.hist[j]? = some (lastN hlen (List.replicate hlen A.one ++
      pathCosts (view m) (cost m) (start m) done)) ∧
      st.histSum[j]? = some (if done = [] then A.one else rowSum A (lastN hlen
        (List.replicate hlen A.one ++ pathCosts (view m) (cost m) (start m) done))))

theorem pathState_append (v : Int → Int → Int) (s : Int) (as bs : List Int) :
    pathState v s (as ++ bs) = pathState v (pathState v s as) bs := by
  induction as generalizing s with
  | nil => rfl
  | cons a as ih => exact ih _

theorem pathCosts_append {C : Type} (v : Int → Int → Int) (w : Int → Int → C) (s : Int)
    (as bs : List Int) :
    pathCosts v w s (as ++ bs) = pathCosts v w s as ++ pathCosts v w (pathState v s as) bs := by
  induction as generalizing s with
  | nil => rfl
  | cons a as ih => simp [pathCosts, pathState, ih]

theorem pathCosts_length {C : Type} (v : Int → Int → Int) (w : Int → Int → C) (s : Int)
    (as : List Int) : (pathCosts v w s as).length = as.length := by
  induction as generalizing s with
  | nil => rfl
  | cons a as ih => simp [pathCosts, ih]

theorem lastN_push {α : Type} {n : Nat} (hn : 0 < n) {l : List α} (hl : n ≤ l.length) (x : α) :
    (lastN n l).tail ++ [x] = lastN n (l ++ [x]) := by
  unfold lastN
  rw [List.tail_drop, List.length_append, List.length_singleton]
  have : l.length + 1 - n = l.length - n + 1 := by omega
  rw [this, List.drop_append_of_le_length (by omega)]

theorem stepAll_get {vs : List (Int → Int → Int)} {ss : List Int} {c : Int} {j : Nat}
    {v : Int → Int → Int} {s : Int} (hv : vs[j]? = some v) (hs : ss[j]? = some s) :
    (stepAll vs ss c)[j]? = some (v s c) := by
  simp [stepAll, List.getElem?_zipWith, hv, hs]

theorem costAll_get {C : Type} {vs : List (Int → Int → C)} {ss : List Int} {c : Int} {j : Nat}
    {v : Int → Int → C} {s : Int} (hv : vs[j]? = some v) (hs : ss[j]? = some s) :
    (costAll vs ss c)[j]? = some (v s c) := by
  simp [costAll, List.getElem?_zipWith, hv, hs]

theorem At.step {models0 : List σ} {hlen : Nat} {done : List Int} {st rst : HubState A.C} {c : Int}
    (ha : At view cost env.start models0 hlen done st)
    (h1 : rst.modelStates = stepAll (models0.map view) st.modelStates c)
    (h2 : 0 < hlen → rst.hist =
      histStep A (costAll (models0.map cost) st.modelStates c) st.hist ∧ rst.histSum =
      histSumStep A (costAll (models0.map cost) st.modelStates c) st.hist) :
    At view cost env.start models0 hlen (done ++ [c]) rst := by
  intro j m hm
  obtain ⟨a1, a2⟩ := ha j m hm
  have hv : (models0.map view)[j]? = some (view m) := by simp [hm]
  have hc : (models0.map cost)[j]? = some (cost m) := by simp [hm]
  refine ⟨?_, fun hp => ?_⟩
  · rw [h1, stepAll_get hv a1, pathState_append]; rfl
  · rw [(h2 hp).1, (h2 hp).2, pathCosts_append, if_neg (by simp)]
    have hx := costAll_get (c := c) hc a1
    simp only [histStep, histSumStep, List.getElem?_zipWith, hx, (a2 hp).1]
    have hL := lastN_push hp (l := List.replicate hlen A.one ++
      pathCosts (view m) (cost m) (env.start m) done) (by simp)
      (cost m (pathState (view m) (env.start m) done) c)
    rw [List.append_assoc] at hL
    refine ⟨by rw [hL]; rfl, ?_⟩
    show _ = some (rowSum A (lastN hlen (List.replicate hlen A.one ++
      (pathCosts (view m) (cost m) (env.start m) done ++
        [cost m (pathState (view m) (env.start m) done) c]))))
    rw [← hL]
    simp [rowSum]

/-- Consuming a context of non-negative symbols from slot 0. -/
theorem contextLoop_denotes (hf : env.Fair) (hs : env.toLMOps.Static view cost)
    {models0 : List σ} {hlen : Nat} {cs : List Int} :
    ∀ {h h' : Hub A σ} {s : Nat} {r : Int} {done : List Int} {st : HubState A.C}, Inv h →
    Denotes env view cost none h → h.models.map view = models0.map view →
    h.models.map cost = models0.map cost → h.hlen = hlen → h.states[s]? = some st →
    At view cost env.start models0 hlen done st → (∀ c ∈ cs, 0 ≤ c) →
    contextLoop env h s cs = .ok (r, h') → h'.selfRecycled = false →
    ∃ (k : Nat) (rst : HubState A.C), r = k ∧ h'.states[k]? = some rst ∧
      At view cost env.start models0 hlen (done ++ cs) rst := by
  induction cs with
  | nil =>
    intro h h' s r done st hi hd hv hc hl hst ha hcs he hg
    simp only [contextLoop, Except.ok.injEq, Prod.mk.injEq] at he
    obtain ⟨rfl, rfl⟩ := he
    exact ⟨s, st, rfl, hst, by simpa using ha⟩
  | cons c cs ih =>
    intro h h' s r done st hi hd hv hc hl hst ha hcs he hg
    simp only [contextLoop] at he
    obtain ⟨⟨r1, h1⟩, e1, he⟩ := bind_ok.1 he
    have o := (nextState_good hf hi e1)
    have g := o.1
    have hslt := lt_of_getElem?_eq_some hst
    have hsrc : source h (s : Int) = s := by
      have := source_valid (h := h) (s := (s : Int)) (by omega) (by omega)
      omega
    obtain ⟨r2, h2, e2, g2, _⟩ := contextLoop_ok hf g.inv (if r1 < 0 then 0 else r1) cs
    have he' : contextLoop env h1 (if r1 < 0 then 0 else r1) cs = .ok (r, h') := he
    rw [he'] at e2; cases e2
    have hg1 : h1.selfRecycled = false := by
      cases hb : h1.selfRecycled with
      | false => rfl
      | true => rw [g2.const.ghost hb] at hg; cases hg
    have hst' : h.states[source h (s : Int)]? = some st := by rw [hsrc]; exact hst
    obtain ⟨k, rst, rfl, k1, k2, k3⟩ := o.2.denotes hf hs hi hd (hcs c (by simp)) hg1 hst'
    have ha' : At view cost env.start models0 hlen (done ++ [c]) rst := by
      refine ha.step (by rw [k2, hv]) (fun hp => ?_)
      rw [(k3 (by omega)).1, (k3 (by omega)).2, hc]; exact ⟨rfl, rfl⟩
    rw [if_neg (by omega)] at he
    have := ih (h := h1) (h' := h') (s := k) (r := r) (done := done ++ [c]) (st := rst) g.inv
      (g.pres _ _ (denotes_preserved hf hs) hd) (by rw [← hs.views g.const.models]; exact hv)
      (by rw [← hs.costs g.const.models]; exact hc) (by rw [g.const.hlen]; exact hl) k1 ha'
      (fun c' hc' => hcs c' (by simp [hc'])) he hg
    simpa using this

theorem reach_good (hf : env.Fair) {models : List σ} {cfg : HubConfig A.C} {calls : List Call}
    {h : Hub A σ} (hr : Reach env models cfg calls h) :
    Good env (initial env models (cfgWeights cfg) (cfgHlen cfg) (cfgMax cfg)) h := by
  obtain ⟨h0, e0, hrun⟩ := hr
  rw [initialize_eq hf] at e0
  split at e0
  · cases e0
  · simp only [Except.ok.injEq, Option.some.injEq] at e0
    subst e0
    exact run_good hf (initial_inv env models _ _ (cfgMax_ge cfg)) hrun

end Mozolm.Hub
