import Verif.Hub.MimicSpec
import Verif.Hub.Tandem
import Verif.Server.Handlers

/-! # Hubs whose components cannot be told apart -/

namespace Mozolm.Hub

variable {A : Arith} {σ τ : Type} {R : σ → τ → Prop} {env : Env A σ} {env' : Env A τ} {h : Hub A σ} {h' : Hub A τ}

/-- Results that agree, with hubs that agree. -/
abbrev Agree (R : σ → τ → Prop) {α : Type} (r : Except Fault (α × Hub A σ)) (r' : Except Fault (α × Hub A τ)) : Prop :=
  Both (fun x y => x.1 = y.1 ∧ Like R x.2 y.2) r r'

theorem Like.put {states : List (HubState A.C)} (hl : Like R h h') : Like R { h with states := states } { h' with states := states } :=
  ⟨rfl, hl.last, hl.max, hl.weights, hl.hlen, hl.models, hl.selfRecycled⟩

theorem Like.swap {ms : List σ} {ms' : List τ} (hl : Like R h h') (hm : Pointwise R ms ms') : Like R { h with models := ms } { h' with models := ms' } :=
  ⟨hl.states, hl.last, hl.max, hl.weights, hl.hlen, hm, hl.selfRecycled⟩

theorem Both.same {α : Type} (r : Except Fault α) : Both (fun a b => a = b) r r := by
  cases r with
  | error e => exact .error _
  | ok a => exact .ok rfl

theorem nextAll_like (hm : env.Mimics env'.toLMOps R) (st : HubState A.C) (c : Int) {ms : List σ} {ms' : List τ} (hp : Pointwise R ms ms') (i : Nat) :
    (nextAll env.toLMOps st c i ms).1 = (nextAll env'.toLMOps st c i ms').1 ∧ Pointwise R (nextAll env.toLMOps st c i ms).2 (nextAll env'.toLMOps st c i ms').2 := by
  induction hp generalizing i with
  | nil => exact ⟨rfl, .nil⟩
  | cons r _ ih =>
    obtain ⟨a, b⟩ := hm.next (st.modelState i) c r
    obtain ⟨x, y⟩ := ih (i + 1)
    exact ⟨by simp only [nextAll, a, x], .cons b y⟩

theorem scoreAll_like (hm : env.Mimics env'.toLMOps R) (st : HubState A.C) (c : Int) {ms : List σ} {ms' : List τ} (hp : Pointwise R ms ms') (i : Nat) :
    (scoreAll env.toLMOps st c i ms).1 = (scoreAll env'.toLMOps st c i ms').1 ∧ Pointwise R (scoreAll env.toLMOps st c i ms).2 (scoreAll env'.toLMOps st c i ms').2 := by
  induction hp generalizing i with
  | nil => exact ⟨rfl, .nil⟩
  | cons r _ ih =>
    obtain ⟨a, b⟩ := hm.symScore (st.modelState i) c r
    obtain ⟨x, y⟩ := ih (i + 1)
    exact ⟨by simp only [scoreAll, a, x], .cons b y⟩

theorem updateHub_like (hN : env.orderN = env'.orderN) (hl : Like R h h') (idx : Nat) (ms : List Int) (prev sym : Int) :
    Both (fun x y => (x = none ∧ y = none) ∨ ∃ a b, x = some a ∧ y = some b ∧ Like R a b) (updateHubState env h idx ms prev sym)
      (updateHubState env' h' idx ms prev sym) := by
  simp only [updateHubState, hl.states, hl.hlen, hN]
  cases h'.states[idx]? with
  | none => exact .error _
  | some st =>
    simp only
    cases st.updateHubState env'.orderN (HubState.mk' A ms prev sym h'.hlen) with
    | none => exact .ok (.inl ⟨rfl, rfl⟩)
    | some p =>
      refine (Both.same _).bind fun a b e => .ok (.inr ⟨_, _, rfl, rfl, ?_⟩)
      subst e
      exact ⟨rfl, hl.last, hl.max, hl.weights, rfl, hl.models, hl.selfRecycled⟩

theorem starts_like (hm : env.Mimics env'.toLMOps R) {ms : List σ} {ms' : List τ} (hp : Pointwise R ms ms') : ms.map env.start = ms'.map env'.start := by
  induction hp with
  | nil => rfl
  | cons r _ ih => simp only [List.map_cons, ih]; rw [hm.start r]

theorem bayes_like (hm : env.Mimics env'.toLMOps R) (hl : Like R h h') (s : Nat) :
    Both (Like R) (updateBayesianHistory env h s) (updateBayesianHistory env' h' s) := by
  simp only [updateBayesianHistory, hl.states, hl.hlen]
  by_cases h0 : h'.hlen = 0
  · rw [if_pos h0, if_pos h0]; exact .ok hl
  · rw [if_neg h0, if_neg h0]
    cases h'.states[s]? with
    | none => exact .error _
    | some st =>
      simp only
      by_cases hp : st.prev < 0
      · rw [if_pos hp, if_pos hp]; exact .ok hl
      · rw [if_neg hp, if_neg hp]
        cases h'.states[st.prev.toNat]? with
        | none => exact .error _
        | some pst =>
          obtain ⟨a, b⟩ := scoreAll_like hm pst st.sym hl.models 0
          simp only [a]
          cases HubState.histRows A (scoreAll env'.toLMOps pst st.sym 0 h'.models).1 st.hist st.histSum pst.hist with
          | error f => exact .error _
          | ok p => exact .ok ⟨rfl, hl.last, hl.max, hl.weights, rfl, b, hl.selfRecycled⟩

theorem finish_like (hm : env.Mimics env'.toLMOps R) (hl : Like R h h') (prev : Nat) (c : Int) (idx : Nat) :
    Agree R (finishNew env prev c h idx) (finishNew env' prev c h' idx) := by
  simp only [finishNew, hl.states]
  cases h'.states[prev]? with
  | none => exact .error _
  | some pst =>
    refine (bayes_like hm ?_ idx).bind fun a b hab => .ok ⟨rfl, hab⟩
    exact ⟨rfl, rfl, hl.max, hl.weights, hl.hlen, hl.models, by simp only [hl.selfRecycled]⟩

theorem recycle_like (hm : env.Mimics env'.toLMOps R) (hN : env.orderN = env'.orderN) (hl : Like R h h') (ms : List Int) (prev : Nat) (c : Int) (idx : Nat) :
    Agree R (recycleNew env ms prev c h idx) (recycleNew env' ms prev c h' idx) := by
  unfold recycleNew
  refine (updateHub_like hN hl idx ms prev c).bind fun a b hab => ?_
  rcases hab with ⟨rfl, rfl⟩ | ⟨x, y, rfl, rfl, hxy⟩
  · exact .ok ⟨rfl, hl⟩
  · exact finish_like hm hxy prev c idx

theorem assign_like (hm : env.Mimics env'.toLMOps R) (hN : env.orderN = env'.orderN) (hl : Like R h h') (ms : List Int) (prev : Nat) (c : Int) :
    Agree R (assignNew env h ms prev c) (assignNew env' h' ms prev c) := by
  rw [assignNew_parts, assignNew_parts]
  simp only [hl.max, hl.last, hl.hlen]
  have hlen : h.states.length = h'.states.length := by rw [hl.states]
  rw [hlen]
  by_cases h1 : h'.max ≤ h'.states.length
  · rw [if_pos h1, if_pos h1]
    by_cases h2 : h'.max ≤ h'.last + 1
    · rw [if_pos h2, if_pos h2]
      have hs : initializeStart env h = updateHubState env h 0 (h'.models.map env'.start) (-1) 0 := by
        unfold initializeStart; rw [starts_like hm hl.models]
      rw [hs]
      refine (updateHub_like hN hl 0 (h'.models.map env'.start) (-1) 0).bind fun a b hab => ?_
      rcases hab with ⟨rfl, rfl⟩ | ⟨x, y, rfl, rfl, hxy⟩
      · exact .ok ⟨rfl, hl⟩
      · exact recycle_like hm hN hxy ms prev c 1
    · rw [if_neg h2, if_neg h2]; exact recycle_like hm hN hl ms prev c _
  · rw [if_neg h1, if_neg h1]
    refine finish_like hm ?_ prev c _
    exact ⟨by simp only [hl.states], rfl, rfl, hl.weights, rfl, hl.models, hl.selfRecycled⟩

theorem valid_like (hl : Like R h h') (s : Int) : h.valid s = h'.valid s := by
  simp only [Hub.valid, hl.states]

theorem nextState_like (hm : env.Mimics env'.toLMOps R) (hN : env.orderN = env'.orderN) (hl : Like R h h') (s c : Int) :
    Agree R (nextState env h s c) (nextState env' h' s c) := by
  simp only [nextState, valid_like hl, hl.states]
  cases h'.states[if h'.valid s = true then s.toNat else 0]? with
  | none => exact .error _
  | some st =>
    simp only
    by_cases hc : c < 0 ∨ 0 ≤ st.nextState c
    · rw [if_pos hc, if_pos hc]; exact .ok ⟨rfl, hl⟩
    · rw [if_neg hc, if_neg hc]
      obtain ⟨a, b⟩ := nextAll_like hm st c hl.models 0
      rw [a]
      have hl' : Like R { h with states := h'.states, models := (nextAll env.toLMOps st c 0 h.models).2 }
          { h' with models := (nextAll env'.toLMOps st c 0 h'.models).2 } :=
        ⟨rfl, hl.last, hl.max, hl.weights, hl.hlen, b, hl.selfRecycled⟩
      have := assign_like hm hN hl' (nextAll env'.toLMOps st c 0 h'.models).1 (if h'.valid s = true then s.toNat else 0) c
      generalize assignNew env { h with states := h'.states, models := (nextAll env.toLMOps st c 0 h.models).2 } (nextAll env'.toLMOps st c 0 h'.models).1
        (if h'.valid s = true then s.toNat else 0) c = x at this
      generalize assignNew env' { h' with models := (nextAll env'.toLMOps st c 0 h'.models).2 } (nextAll env'.toLMOps st c 0 h'.models).1
        (if h'.valid s = true then s.toNat else 0) c = y at this
      cases this with
      | error e => exact .error _
      | @ok p q hpq =>
        obtain ⟨o, g⟩ := p
        obtain ⟨o', g'⟩ := q
        obtain ⟨ho, hg⟩ := hpq
        simp only at ho hg
        subst ho
        cases o with
        | none => exact .ok ⟨rfl, hg⟩
        | some i => exact .ok ⟨rfl, hg⟩

theorem contextLoop_like (hm : env.Mimics env'.toLMOps R) (hN : env.orderN = env'.orderN) (cs : List Int) : ∀ {h : Hub A σ} {h' : Hub A τ} (s : Int), Like R h h' →
    Agree R (contextLoop env h s cs) (contextLoop env' h' s cs) := by
  induction cs with
  | nil => intro h h' s hl; exact .ok ⟨rfl, hl⟩
  | cons c cs ih =>
    intro h h' s hl
    refine (nextState_like hm hN hl s c).bind fun a b hab => ?_
    rw [hab.1]
    exact ih _ hab.2

theorem extractLoop_like (hm : env.Mimics env'.toLMOps R) (st : HubState A.C) (ws : List A.C) : ∀ {ms : List σ} {ms' : List τ} (i : Nat) (acc : List (Str × A.C))
    (norm : A.D), Pointwise R ms ms' → Both (fun x y => x.1 = y.1 ∧ Pointwise R x.2 y.2) (extractLoop env st i ws ms acc norm) (extractLoop env' st i ws ms' acc norm) := by
  induction ws with
  | nil => intro ms ms' i acc norm hp; simp only [extractLoop]; exact .ok ⟨rfl, hp⟩
  | cons w ws ih =>
    intro ms ms' i acc norm hp
    cases hp with
    | nil => exact .error _
    | @cons m m' as bs r hp =>
      obtain ⟨a, b⟩ := hm.extract (st.modelState i) r
      simp only [extractLoop]
      generalize env.extract m (st.modelState i) = x at a b
      generalize env'.extract m' (st.modelState i) = y at a b
      obtain ⟨o, m1⟩ := x
      obtain ⟨o', m1'⟩ := y
      simp only at a b
      subst a
      cases o with
      | none => exact .ok ⟨rfl, .cons b hp⟩
      | some sc =>
        refine (Both.same _).bind fun u v e => ?_
        subst e
        exact (ih (i + 1) u.2 _ hp).bind fun x y hxy => .ok ⟨hxy.1, .cons b hxy.2⟩

theorem extract_like (hm : env.Mimics env'.toLMOps R) (hV : env.orderV = env'.orderV) (hl : Like R h h') (s : Int) :
    Agree R (extractLMScores env h s) (extractLMScores env' h' s) := by
  simp only [extractLMScores, valid_like hl, hl.states, hl.weights]
  by_cases hv : (!h'.valid s) = true
  · rw [if_pos hv, if_pos hv]; exact .ok ⟨rfl, hl⟩
  · rw [if_neg hv, if_neg hv]
    cases h'.states[s.toNat]? with
    | none => exact .error _
    | some st =>
      simp only
      by_cases hw : h'.weights.length < 2
      · rw [if_pos hw, if_pos hw]
        have hp := hl.models
        generalize hM : h.models = M at hp
        generalize hM' : h'.models = M' at hp
        cases hp with
        | nil => exact .error _
        | cons r hp =>
          obtain ⟨a, b⟩ := hm.extract (st.modelState 0) r
          exact .ok ⟨a, rfl, hl.last, hl.max, rfl, hl.hlen, .cons b hp, hl.selfRecycled⟩
      · rw [if_neg hw, if_neg hw]
        have hg : getMixtureWeights h s true = getMixtureWeights h' s true := by
          simp only [getMixtureWeights, hl.hlen, hl.weights, hl.states, valid_like hl]
        rw [hg]
        refine (Both.same _).bind fun u v e => ?_
        subst e
        refine (extractLoop_like hm st u 0 [] _ hl.models).bind fun x y hxy => ?_
        obtain ⟨o, ms⟩ := x
        obtain ⟨o', ms'⟩ := y
        obtain ⟨e, hp⟩ := hxy
        simp only at e hp
        subst e
        cases o with
        | none => exact .ok ⟨rfl, rfl, hl.last, hl.max, rfl, hl.hlen, hp, hl.selfRecycled⟩
        | some p =>
          refine .ok ⟨?_, rfl, hl.last, hl.max, rfl, hl.hlen, hp, hl.selfRecycled⟩
          simp only [extractMixture, hV]

theorem ensure_like (hm : env.Mimics env'.toLMOps R) (hN : env.orderN = env'.orderN) (cs : List Int) : ∀ {h : Hub A σ} {h' : Hub A τ} (s : Int), Like R h h' →
    Both (Like R) (ensureStates env h s cs) (ensureStates env' h' s cs) := by
  induction cs with
  | nil => intro h h' s hl; exact .ok hl
  | cons c cs ih =>
    intro h h' s hl
    refine (nextState_like hm hN hl s c).bind fun a b hab => ?_
    rw [hab.1]
    exact ih _ hab.2

theorem each_like (hm : env.Mimics env'.toLMOps R) (es : List (Int × Nat)) : ∀ {h : Hub A σ} {h' : Hub A τ}, Like R h h' →
    Both (Like R) (historyEach env h es) (historyEach env' h' es) := by
  induction es with
  | nil => intro h h' hl; exact .ok hl
  | cons e es ih => intro h h' hl; exact (bayes_like hm hl e.2).bind fun a b hab => ih hab

theorem history_like (hm : env.Mimics env'.toLMOps R) (hN : env.orderN = env'.orderN) (cs : List Int) : ∀ {h : Hub A σ} {h' : Hub A τ} (s : Int), Like R h h' →
    Both (Like R) (historyLoop env h s cs) (historyLoop env' h' s cs) := by
  induction cs with
  | nil => intro h h' s hl; exact .ok hl
  | cons c cs ih =>
    intro h h' s hl
    simp only [historyLoop, hl.states, hN]
    by_cases hs : s < 0
    · rw [if_pos hs, if_pos hs]; exact .error _
    · rw [if_neg hs, if_neg hs]
      cases h'.states[s.toNat]? with
      | none => exact .error _
      | some st =>
        refine (each_like hm _ hl).bind fun a b hab => (nextState_like hm hN hab s c).bind fun x y hxy => ?_
        rw [hxy.1]
        exact ih _ hxy.2

theorem updateLoop_like (hm : env.Mimics env'.toLMOps R) (st : HubState A.C) (cs : List Int) (n : Int) (ws : List A.C) : ∀ {ms : List σ} {ms' : List τ} (i : Nat),
    Pointwise R ms ms' → Both (fun x y => x.1 = y.1 ∧ Pointwise R x.2 y.2) (updateLoop env st cs n i ws ms) (updateLoop env' st cs n i ws ms') := by
  induction ws with
  | nil => intro ms ms' i hp; simp only [updateLoop]; exact .ok ⟨rfl, hp⟩
  | cons w ws ih =>
    intro ms ms' i hp
    cases hp with
    | nil => exact .error _
    | @cons m m' as bs r hp =>
      obtain ⟨a, b⟩ := hm.update (st.modelState i) cs n r
      simp only [updateLoop]
      generalize env.update m (st.modelState i) cs n = x at a b
      generalize env'.update m' (st.modelState i) cs n = y at a b
      obtain ⟨o, m1⟩ := x
      obtain ⟨o', m1'⟩ := y
      simp only at a b
      subst a
      cases o with
      | false => exact .ok ⟨rfl, .cons b hp⟩
      | true => exact (ih (i + 1) hp).bind fun x y hxy => .ok ⟨hxy.1, .cons b hxy.2⟩

theorem verify_like (hm : env.Mimics env'.toLMOps R) (cs : List Int) : ∀ {h : Hub A σ} {h' : Hub A τ} (s : Nat), Like R h h' →
    Agree R (verifyLoop env h s cs) (verifyLoop env' h' s cs) := by
  induction cs with
  | nil => intro h h' s hl; exact .ok ⟨rfl, hl⟩
  | cons c cs ih =>
    intro h h' s hl
    simp only [verifyLoop, hl.states]
    cases h'.states[s]? with
    | none => exact .error _
    | some st =>
      simp only
      cases HubState.lookup st.nexts c with
      | none => exact .ok ⟨rfl, hl⟩
      | some k =>
        obtain ⟨a, b⟩ := nextAll_like hm st c hl.models 0
        simp only [a]
        cases h'.states[k]? with
        | none => exact .error _
        | some kst =>
          refine (Both.same _).bind fun u v e => ?_
          subst e
          have hl' : Like R { h with states := h'.states.set k u.2, models := (nextAll env.toLMOps st c 0 h.models).2 }
              { h' with states := h'.states.set k u.2, models := (nextAll env'.toLMOps st c 0 h'.models).2 } :=
            ⟨rfl, hl.last, hl.max, hl.weights, hl.hlen, b, hl.selfRecycled⟩
          by_cases hu : u.1 = true
          · rw [if_pos hu, if_pos hu]; exact ih k hl'
          · rw [if_neg hu, if_neg hu]; exact .ok ⟨rfl, hl'⟩

theorem update_like (hm : env.Mimics env'.toLMOps R) (hN : env.orderN = env'.orderN) (hl : Like R h h') (s : Int) (cs : List Int) (n : Int) :
    Agree R (updateLMCounts env h s cs n) (updateLMCounts env' h' s cs n) := by
  simp only [updateLMCounts, valid_like hl]
  refine (ensure_like hm hN cs s hl).bind fun a b hab => ?_
  have hmid : Both (Like R) (if 0 < a.hlen then historyLoop env a s cs else .ok a) (if 0 < b.hlen then historyLoop env' b s cs else .ok b) := by
    rw [hab.hlen]
    by_cases hz : 0 < b.hlen
    · rw [if_pos hz, if_pos hz]; exact history_like hm hN cs s hab
    · rw [if_neg hz, if_neg hz]; exact .ok hab
  refine hmid.bind fun x y hxy => ?_
  by_cases hv : h'.valid s = true
  · rw [if_pos hv, if_pos hv]
    rw [hxy.states]
    cases y.states[s.toNat]? with
    | none => exact .error _
    | some st =>
      simp only [hxy.weights]
      refine (updateLoop_like hm st cs n y.weights 0 hxy.models).bind fun u v huv => ?_
      have hl' : Like R { x with states := y.states, weights := y.weights, models := u.2 } { y with models := v.2 } :=
        ⟨rfl, hxy.last, hxy.max, rfl, hxy.hlen, huv.2, hxy.selfRecycled⟩
      rw [huv.1]
      by_cases hu : v.1 = true
      · rw [if_pos hu, if_pos hu]; exact verify_like hm cs s.toNat hl'
      · rw [if_neg hu, if_neg hu]; exact .ok ⟨rfl, hl'⟩
  · rw [if_neg hv, if_neg hv]; exact .ok ⟨rfl, hxy⟩

theorem initialize_like (hm : env.Mimics env'.toLMOps R) (hN : env.orderN = env'.orderN) {ms : List σ} {ms' : List τ} (hp : Pointwise R ms ms') (cfg : HubConfig A.C) :
    Both (fun x y => (x = none ∧ y = none) ∨ ∃ a b, x = some a ∧ y = some b ∧ Like R a b) (initializeModels env ms cfg) (initializeModels env' ms' cfg) := by
  have hz : (ms.map fun _ => (0 : Int)) = ms'.map fun _ => (0 : Int) := by
    rw [List.map_const', List.map_const', hp.length_eq]
  have go : ∀ (weights : List A.C) (hlen : Nat), Both (fun x y => (x = none ∧ y = none) ∨ ∃ a b, x = some a ∧ y = some b ∧ Like R a b)
      ((initializeStart env { states := [HubState.mk' A (ms.map fun _ => 0) (-1) 0 hlen], last := 0, max := 0, weights, hlen, models := ms, selfRecycled := false }).bind
        fun | none => .ok none | some h => .ok (some { h with max := if cfg.maxStates < 10 then 10000 else cfg.maxStates.toNat, last := 0 }))
      ((initializeStart env' { states := [HubState.mk' A (ms'.map fun _ => 0) (-1) 0 hlen], last := 0, max := 0, weights, hlen, models := ms', selfRecycled := false }).bind
        fun | none => .ok none | some h => .ok (some { h with max := if cfg.maxStates < 10 then 10000 else cfg.maxStates.toNat, last := 0 })) := by
    intro weights hlen
    simp only [initializeStart]
    rw [hz, starts_like hm hp]
    refine (updateHub_like (R := R) hN ?_ 0 (ms'.map env'.start) (-1) 0).bind fun a b hab => ?_
    · exact ⟨rfl, rfl, rfl, rfl, rfl, hp, rfl⟩
    · rcases hab with ⟨rfl, rfl⟩ | ⟨x, y, rfl, rfl, hxy⟩
      · exact .ok (.inl ⟨rfl, rfl⟩)
      · exact .ok (.inr ⟨_, _, rfl, rfl, hxy.states, rfl, rfl, hxy.weights, hxy.hlen, hxy.models, hxy.selfRecycled⟩)
  unfold initializeModels
  cases cfg.mixture with
  | none => exact go _ _
  | interpolation =>
    by_cases hw : cfg.weights.length < 2
    · simp only [if_pos hw]; exact go _ _
    · simp only [if_neg hw]; exact go _ _
  | unknown => exact .ok (.inl ⟨rfl, rfl⟩)

end Mozolm.Hub

namespace Mozolm.Server
open Hub

variable {A : Arith} {σ τ : Type} {R : σ → τ → Prop} {env : Env A σ} {env' : Env A τ} {h : Hub A σ} {h' : Hub A τ}

theorem scores_like (hm : env.Mimics env'.toLMOps R) (hN : env.orderN = env'.orderN) (hV : env.orderV = env'.orderV) (hl : Like R h h') (ctx : List Int) (s : Int) :
    Agree R (getLMScores env h ctx s) (getLMScores env' h' ctx s) := by
  refine (contextLoop_like hm hN ctx _ hl).bind fun a b hab => ?_
  rw [hab.1]
  refine (extract_like hm hV hab.2 b.1).bind fun x y hxy => ?_
  obtain ⟨o, g⟩ := x
  obtain ⟨o', g'⟩ := y
  obtain ⟨e, hg⟩ := hxy
  simp only at e hg
  subst e
  cases o with
  | none => exact .ok ⟨rfl, hg⟩
  | some r => exact .ok ⟨rfl, hg⟩

theorem next_like (hm : env.Mimics env'.toLMOps R) (hN : env.orderN = env'.orderN) (hl : Like R h h') (ctx : List Int) (s : Int) :
    Agree R (getNextState env h ctx s) (getNextState env' h' ctx s) :=
  (contextLoop_like hm hN ctx _ hl).bind fun a b hab => .ok ⟨by rw [hab.1], hab.2⟩

theorem walk_like (hm : env.Mimics env'.toLMOps R) (hN : env.orderN = env'.orderN) (cs : List Int) : ∀ {h : Hub A σ} {h' : Hub A τ} (s : Int), Like R h h' →
    Agree R (walk env h s cs) (walk env' h' s cs) := by
  induction cs with
  | nil => intro h h' s hl; exact .ok ⟨rfl, hl⟩
  | cons c cs ih =>
    intro h h' s hl
    refine (nextState_like hm hN hl s c).bind fun a b hab => ?_
    rw [hab.1]
    exact ih _ hab.2

theorem updates_like (hm : env.Mimics env'.toLMOps R) (hN : env.orderN = env'.orderN) (hV : env.orderV = env'.orderV) (hl : Like R h h') (s : Int) (cs : List Int)
    (n : Int) : Agree R (updateLMScores env h s cs n) (updateLMScores env' h' s cs n) := by
  refine (walk_like hm hN cs _ hl).bind fun a b hab => (update_like hm hN hab.2 _ cs n).bind fun u v huv => ?_
  rw [huv.1]
  by_cases hv : v.1 = true
  · rw [if_pos hv, if_pos hv, hab.1]
    refine (extract_like hm hV huv.2 b.1).bind fun x y hxy => ?_
    obtain ⟨o, g⟩ := x
    obtain ⟨o', g'⟩ := y
    obtain ⟨e, hg⟩ := hxy
    simp only at e hg
    subst e
    cases o with
    | none => exact .ok ⟨rfl, hg⟩
    | some r => exact .ok ⟨rfl, hg⟩
  · rw [if_neg hv, if_neg hv]; exact .ok ⟨rfl, huv.2⟩

end Mozolm.Server
