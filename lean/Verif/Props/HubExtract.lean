import Verif.Props.HubNumeric

/-!
# C70: when the hub can answer, and C02/C06: the symbols of the start state and of invalid states
-/

namespace Mozolm.Hub
open XR
variable {A : Arith} {σ : Type} {env : Env A σ} {models : List σ} {cfg : HubConfig A.C} {calls : List Call} {h h' : Hub A σ}

/-- C02: an id that is not an existing state has no symbol. -/
theorem C02_invalid_sym (h : Hub A σ) {s : Int} (hs : h.valid s = false) : stateSym h s = -1 := by
  unfold stateSym
  split
  · rfl
  · next h0 =>
    have : h.states[s.toNat]? = none := by
      rw [List.getElem?_eq_none_iff]
      unfold Hub.valid at hs
      simp only [Bool.and_eq_false_iff, decide_eq_false_iff_not] at hs
      omega
    rw [this]

/-- C06: the start state's symbol stays 0. -/
theorem C06_start_sym (hf : env.Fair) (hss : env.toLMOps.StartStable) (hr : Reach env models cfg calls h) :
    stateSym h 0 = 0 := by
  have g := reach_good hf hr
  obtain ⟨st, e1, _, _, e4⟩ := g.pres _ _ (start_preserved hf hss) ⟨_, rfl, rfl, rfl, rfl⟩
  unfold stateSym
  rw [if_neg (by omega)]
  show (match h.states[0]? with | some st => st.sym | none => -1) = 0
  rw [e1]; exact e4

theorem extractLoop_none {env : Env A σ} {st : HubState A.C} :
    ∀ {ws : List A.C} {i : Nat} {ms : List σ} {acc : List (Str × A.C)} {norm : A.D} {r ms'},
    extractLoop env st i ws ms acc norm = .ok (r, ms') →
    (r = none ↔ ∃ k m, k < ws.length ∧ ms[k]? = some m ∧ (env.extract m (st.modelState (i + k))).1 = none) := by
  intro ws
  induction ws with
  | nil =>
    intro i ms acc norm r ms' he
    simp only [extractLoop, Except.ok.injEq, Prod.mk.injEq] at he
    rw [← he.1]; simp
  | cons w ws ih =>
    intro i ms acc norm r ms' he
    cases ms with
    | nil => simp [extractLoop] at he
    | cons m ms =>
      simp only [extractLoop] at he
      split at he
      · next m' hx =>
        simp only [Except.ok.injEq, Prod.mk.injEq] at he
        exact ⟨fun _ => ⟨0, m, by simp, rfl, by rw [Nat.add_zero, hx]⟩, fun _ => he.1.symm⟩
      · next x m' hx =>
        obtain ⟨mr, _, he⟩ := bind_ok.1 he
        obtain ⟨⟨r', ms1⟩, e2, he⟩ := bind_ok.1 he
        simp only [Except.ok.injEq, Prod.mk.injEq] at he
        rw [← he.1, ih e2]
        constructor
        · rintro ⟨k, y, h1, h2, h3⟩
          refine ⟨k + 1, y, by simpa using h1, by simpa using h2, ?_⟩
          rw [show i + (k + 1) = i + 1 + k by omega]; exact h3
        · rintro ⟨k, y, h1, h2, h3⟩
          cases k with
          | zero =>
            simp only [List.getElem?_cons_zero, Option.some.injEq] at h2
            subst h2
            rw [Nat.add_zero, hx] at h3; cases h3
          | succ k =>
            refine ⟨k, y, by simpa using h1, by simpa using h2, ?_⟩
            rw [show i + 1 + k = i + (k + 1) by omega]; exact h3

theorem getMixtureWeights_length {h : Hub A σ} {s : Int} {ws : List A.C} (he : getMixtureWeights h s true = .ok ws) : ws.length = h.weights.length := by
  unfold getMixtureWeights at he
  split at he
  · injection he with he; rw [he]
  · next hc =>
    split at he
    · cases he
    · next st hst =>
      unfold bayesianWeights at he
      split at he
      · next hle =>
        injection he with he
        rw [← he, normalizeWeights_length, List.length_zipWith]; omega
      · cases he

/-- **C70** `ExtractLMScores` of a mixing hub answers false at an existing state exactly if some mixed
component does at its own state. -/
theorem C70_needs_every_component {s : Int} {st : HubState A.C} (hv : h.valid s = true) (hst : h.states[s.toNat]? = some st) (h2 : 2 ≤ h.weights.length)
    {r : Option (LMScores A.D)}
    (he : extractLMScores env h s = .ok (r, h')) :
    r = none ↔ ∃ k m, k < h.weights.length ∧ h.models[k]? = some m ∧ (env.extract m (st.modelState k)).1 = none := by
  unfold extractLMScores at he
  rw [if_neg (by simp [hv]), hst] at he
  simp only at he
  rw [if_neg (by omega)] at he
  obtain ⟨ws, e1, he⟩ := bind_ok.1 he
  obtain ⟨⟨x, ms⟩, e2, he⟩ := bind_ok.1 he
  have hl := getMixtureWeights_length e1
  have key := extractLoop_none e2
  simp only [Nat.zero_add] at key
  rw [hl] at key
  rw [← key]
  cases x with
  | none =>
    simp only [Except.ok.injEq, Prod.mk.injEq] at he
    rw [← he.1]; simp
  | some p =>
    simp only [Except.ok.injEq, Prod.mk.injEq] at he
    rw [← he.1]; simp

/-- **C70** A hub without mixing answers what its first component answers at its own state. -/
theorem C70_single (hf : env.Fair) (hr : Reach env models cfg calls h)
    (hcfg : cfg.mixture = .none ∨ cfg.weights.length < 2) {s : Int} {st : HubState A.C} (hv : h.valid s = true)
    (hst : h.states[s.toNat]? = some st) {m : σ} {ms : List σ} (hm : h.models = m :: ms) :
    extractLMScores env h s =
      .ok ((env.extract m (st.modelState 0)).1, { h with models := (env.extract m (st.modelState 0)).2 :: ms }) := by
  have g := reach_good hf hr
  have hw : h.weights.length < 2 := by
    rw [g.const.weights]
    show (cfgWeights cfg).length < 2
    unfold cfgWeights
    split
    · next hx =>
      rcases hcfg with hc | hc
      · rw [hc] at hx; cases hx.1
      · rw [normalizeWeights_length]; exact hc
    · simp
  unfold extractLMScores
  rw [if_neg (by simp [hv]), hst]
  simp only
  rw [if_pos hw, hm]

theorem extractLoop_norm {env : Env Arith.xr σ} {st : HubState XR} :
    ∀ {ws : List ℝ} {i : Nat} {ms : List σ} {acc : List (Str × XR)} {n : ℝ} {acc' : List (Str × XR)} {norm : XR} {ms' : List σ}
      {ns : List ℝ}, (∀ w ∈ ws, 0 ≤ w) → ns.length = ws.length →
    (∀ (k : Nat) (m : σ) (x : ℝ), ms[k]? = some m → ns[k]? = some x →
      ∀ r, (env.extract m (st.modelState (i + k))).1 = some r → r.norm = .fin x) →
    extractLoop env st i (ws.map costOf) ms acc (.fin n) = .ok (some (acc', norm), ms') →
    norm = .fin (n + (List.zipWith (fun w x => w * x) ws ns).sum) := by
  intro ws
  induction ws with
  | nil =>
    intro i ms acc n acc' norm ms' ns _ _ _ he
    simp only [List.map_nil, extractLoop, Except.ok.injEq, Prod.mk.injEq, Option.some.injEq] at he
    rw [← he.1.2]; simp
  | cons w ws ih =>
    intro i ms acc n acc' norm ms' ns hnn hlen hns he
    cases ms with
    | nil => simp [extractLoop] at he
    | cons m ms =>
      cases ns with
      | nil => simp at hlen
      | cons x ns =>
        simp only [List.map_cons, extractLoop] at he
        split at he
        · simp at he
        · next r m' hx =>
          obtain ⟨mr, e1, he⟩ := bind_ok.1 he
          obtain ⟨⟨r', ms1⟩, e2, he⟩ := bind_ok.1 he
          simp only [Except.ok.injEq, Prod.mk.injEq] at he
          obtain ⟨hres, _⟩ := he
          have hr : r.norm = .fin x := hns 0 m x rfl rfl r (by rw [Nat.add_zero, hx])
          unfold mixResults at e1
          obtain ⟨ac, _, e1⟩ := bind_ok.1 e1
          injection e1 with e1
          subst e1
          have hadd : Arith.xr.dadd (.fin n) (Arith.xr.dmul r.norm (Arith.xr.prob (costOf w))) = .fin (n + w * x) := by
            show XR.add (.fin n) (XR.mul r.norm (expNeg (costOf w))) = _
            rw [expNeg_costOf (hnn w (by simp)), hr]
            simp only [XR.mul, XR.add]
            rw [mul_comm]
          change extractLoop env st (i + 1) (List.map costOf ws) ms ac
            (Arith.xr.dadd (.fin n) (Arith.xr.dmul r.norm (Arith.xr.prob (costOf w)))) = .ok (r', ms1) at e2
          rw [hadd, hres] at e2
          have := ih (i := i + 1) (fun w' h' => hnn w' (by simp [h'])) (by simpa using hlen)
            (fun k y z h1 h2 r h3 => hns (k + 1) y z (by simpa using h1) (by simpa using h2) r (by
              rw [show i + (k + 1) = i + 1 + k by omega]; exact h3)) e2
          rw [this]
          simp only [List.zipWith_cons_cons, List.sum_cons]
          rw [add_assoc]

/-- **C70** The normalisation the hub reports is the weighted sum of the components' (`ws` are the mixture
weights in force, `ns` the components' normalisations). -/
theorem C70_normalization {env : Env Arith.xr σ} {h h' : Hub Arith.xr σ} {s : Int} {st : HubState XR}
    (hv : h.valid s = true) (hst : h.states[s.toNat]? = some st) (h2 : 2 ≤ h.weights.length) {ws ns : List ℝ}
    (hnn : ∀ w ∈ ws, 0 ≤ w) (hws : getMixtureWeights h s true = .ok (ws.map costOf)) (hlen : ns.length = ws.length)
    (hns : ∀ (k : Nat) (m : σ) (x : ℝ), h.models[k]? = some m → ns[k]? = some x →
      ∀ r, (env.extract m (st.modelState k)).1 = some r → r.norm = .fin x) {res : LMScores XR}
    (he : extractLMScores env h s = .ok (some res, h')) :
    res.norm = .fin (List.zipWith (fun w x => w * x) ws ns).sum := by
  unfold extractLMScores at he
  rw [if_neg (by simp [hv]), hst] at he
  simp only at he
  rw [if_neg (by omega), hws] at he
  simp only [ok_bind] at he
  obtain ⟨⟨x, ms⟩, e2, he⟩ := bind_ok.1 he
  cases x with
  | none => simp at he
  | some p =>
    obtain ⟨mixed, norm⟩ := p
    simp only [Except.ok.injEq, Prod.mk.injEq, Option.some.injEq] at he
    rw [Int.cast_zero] at e2
    have := extractLoop_norm hnn hlen (fun k m x h1 h3 r h4 => hns k m x h1 h3 r (by simpa using h4)) e2
    rw [zero_add] at this
    rw [← he.1, ← this]
    unfold extractMixture
    cases env.orderV mixed <;> rfl

/-- two components of which the second cannot answer -/
def deaf : Env Arith.unit Bool where
  start _ := 0
  next m s _ := (s + 1, m)
  extract m _ := (if m then some { symbols := [[97]], probs := [()], norm := () } else none, m)
  symScore m _ _ := ((), m)
  update m _ _ _ := (true, m)
  orderN := id
  orderV := id

/-- C70: a reachable hub of two components, one of which cannot answer -/
example : ∃ (h h' : Hub Arith.unit Bool), Reach deaf [true, false] Demo.cfgBayes [.next 0 97] h ∧ 2 ≤ h.weights.length ∧
    h.valid 1 = true ∧ extractLMScores deaf h 1 = .ok (none, h') :=
  ⟨_, _, ⟨_, rfl, rfl⟩, by decide, rfl, rfl⟩

/-- C70: a reachable hub whose components can all answer -/
example : ∃ (h h' : Hub Arith.unit Bool) (r : LMScores Unit), Reach deaf [true, true] Demo.cfgBayes [.next 0 97] h ∧
    2 ≤ h.weights.length ∧ h.valid 1 = true ∧ extractLMScores deaf h 1 = .ok (some r, h') := by
  have hreach : ∃ (h : Hub Arith.unit Bool) (st : HubState Unit), Reach deaf [true, true] Demo.cfgBayes [.next 0 97] h ∧
      h.weights = [(), ()] ∧ h.valid 1 = true ∧ h.models = [true, true] ∧ h.states[1]? = some st :=
    ⟨_, _, ⟨_, rfl, rfl⟩, rfl, rfl, rfl, rfl⟩
  obtain ⟨h, st, hr, hw, hv, hm, hst⟩ := hreach
  have hfair : deaf.Fair := ⟨fun _ => .refl _, fun _ => .refl _⟩
  have hsc : deaf.ScoresOK := by
    intro m s r hr
    cases m with
    | false => simp [deaf] at hr
    | true => cases hr; rfl
  obtain ⟨r, h', he⟩ := extract_ok hsc (reach_good hfair hr).inv (by rw [hw, hm]; decide) (by rw [hm]; decide) 1
  refine ⟨h, h', ?_⟩
  cases r with
  | some r => exact ⟨r, hr, by rw [hw]; decide, hv, he⟩
  | none =>
    exfalso
    obtain ⟨k, m, h1, h2, h3⟩ := (C70_needs_every_component hv hst (by rw [hw]; decide) he).mp rfl
    rw [hm] at h2
    have hm : m = true := by
      rcases k with _ | _ | k
      · exact (Option.some.inj h2).symm
      · exact (Option.some.inj h2).symm
      · simp at h2
    subst hm
    simp [deaf] at h3

/-- C70: one model -/
example : ∃ (h : Hub Arith.unit Unit), Reach Demo.counter [()] Demo.cfg10 [.next 0 97] h ∧ h.valid 1 = true ∧
    Demo.cfg10.mixture = .none := ⟨_, ⟨_, rfl, rfl⟩, rfl, rfl⟩

/-- C70: the normalisation of the two equally weighted components of `quarter` is one -/
example : ∃ (h : Hub Arith.xr Unit) (st : HubState XR),
    Reach quarter [(), ()] ⟨.interpolation, [XR.fin 0, XR.fin 0], 0, 100⟩ [] h ∧ h.valid 0 = true ∧
    h.states[0]? = some st ∧ 2 ≤ h.weights.length ∧ getMixtureWeights h 0 true = .ok ([1/2, 1/2].map costOf) ∧
    ∀ (k : Nat) (m : Unit) (x : ℝ), h.models[k]? = some m → [(1 : ℝ), 1][k]? = some x →
      ∀ r, (quarter.extract m (st.modelState k)).1 = some r → r.norm = .fin x := by
  have hr : Reach quarter [(), ()] ⟨.interpolation, [XR.fin 0, XR.fin 0], 0, 100⟩ [] _ := ⟨_, rfl, rfl⟩
  obtain ⟨hw, _⟩ := C09_weights (ws := [0, 0]) quarter_fair hr rfl rfl (by simp)
  refine ⟨_, _, hr, rfl, rfl, by rw [hw]; simp, ?_, ?_⟩
  · show Except.ok _ = _
    rw [hw]
    simp
    norm_num
  · intro k m x _ hx r hres
    have hx1 : x = 1 := by
      rcases k with _ | _ | k
      · simpa using hx.symm
      · simpa using hx.symm
      · simp at hx
    subst hx1
    cases hres; rfl

end Mozolm.Hub
