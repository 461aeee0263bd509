import Verif.Hub.TandemSpec
import Verif.Hub.Sorted
import Verif.Hub.Rounding
import Verif.MatchLemmas
import Verif.Ppm.Twin

/-! # Two hubs side by side, one with rounding -/

namespace Mozolm.Hub
open XR

variable {φ : Prop} {ε δ : ℝ} {F : Rounding φ ε δ} {σ τ : Type}

/-- entries of the state tables -/
structure StateTwin (φ : Prop) (ε d : ℝ) (L : Nat) (st st' : HubState XR) : Prop where
  modelStates : st.modelStates = st'.modelStates
  prev : st.prev = st'.prev
  nexts : st.nexts = st'.nexts
  sym : st.sym = st'.sym
  hist : Pointwise (fun r r' : List XR => r.length ≤ L ∧ Pointwise (CostMatch φ d) r r') st.hist st'.hist
  sums : Pointwise (CostMatch φ (L * (d + ε))) st.histSum st'.histSum

/-- the two hubs, with `w` weights, taught `k` times, with histories of length `L` -/
structure HubTwin (F : Rounding φ ε δ) (R : Nat → σ → τ → Prop) (d : ℝ) (w k L : Nat) (h : Hub F.arith σ) (h' : Hub Arith.xr τ) : Prop where
  states : Pointwise (StateTwin φ ε d L) h.states h'.states
  last : h.last = h'.last
  max : h.max = h'.max
  weights : h.weights.length = w ∧ Pointwise (CostMatch φ (w * ε)) h.weights h'.weights
  hlen : h.hlen = h'.hlen
  isLen : h.hlen = L
  models : Pointwise (R k) h.models h'.models
  selfRecycled : h.selfRecycled = h'.selfRecycled

section
variable {ops : LMOps F.arith σ} {ops' : LMOps Arith.xr τ} {env : Env F.arith σ} {env' : Env Arith.xr τ} {R : Nat → σ → τ → Prop} {d n : ℝ} {V N k L w : Nat}

theorem StateTwin.modelState {st st' : HubState XR} (h : StateTwin φ ε d L st st') (i : Nat) : st.modelState i = st'.modelState i := by
  unfold HubState.modelState; rw [h.modelStates]

theorem StateTwin.nextState {st st' : HubState XR} (h : StateTwin φ ε d L st st') (c : Int) : st.nextState c = st'.nextState c := by
  unfold HubState.nextState; rw [h.nexts]

theorem StateTwin.addNext {st st' : HubState XR} (h : StateTwin φ ε d L st st') (c : Int) (i : Nat) :
    StateTwin φ ε d L (st.addNextState c i) (st'.addNextState c i) := by
  unfold HubState.addNextState
  rw [h.nexts]
  cases HubState.lookup st'.nexts c with
  | some _ => exact h
  | none => exact ⟨h.modelStates, h.prev, rfl, h.sym, h.hist, h.sums⟩

theorem StateTwin.resetPrev {st st' : HubState XR} (h : StateTwin φ ε d L st st') : StateTwin φ ε d L st.resetPrev st'.resetPrev :=
  ⟨h.modelStates, rfl, h.nexts, h.sym, h.hist, h.sums⟩

theorem pointwise_replicate {α β : Type} {Q : α → β → Prop} {a : α} {b : β} (h : Q a b) : ∀ n : Nat, Pointwise Q (List.replicate n a) (List.replicate n b)
  | 0 => .nil
  | n + 1 => .cons h (pointwise_replicate h n)

theorem CostMatch.one {e : ℝ} (he : 0 ≤ e) : CostMatch φ e (.fin 0) (.fin 0) := .inr (Ppm.CostTwin.zero he)

theorem StateTwin.mk' (hε : 0 ≤ ε) (hd : 0 ≤ d) (ms : List Int) (prev sym : Int) :
    StateTwin φ ε d L (HubState.mk' F.arith ms prev sym L) (HubState.mk' Arith.xr ms prev sym L) := by
  refine ⟨rfl, rfl, rfl, rfl, ?_, ?_⟩
  · simp only [HubState.mk', initHist]
    split
    · refine pointwise_replicate ⟨by simp, pointwise_replicate (CostMatch.one hd) _⟩ _
    · exact .nil
  · simp only [HubState.mk', initHist]
    split
    · exact pointwise_replicate (CostMatch.one (by positivity)) _
    · exact .nil

theorem histRow_twin (hd : 0 ≤ d) (hε : 0 ≤ ε) {hist hist' prev prev' : List XR} {lm lm' : XR}
    (h1 : hist.length ≤ L ∧ Pointwise (CostMatch φ d) hist hist') (h2 : prev.length ≤ L ∧ Pointwise (CostMatch φ d) prev prev') (h3 : CostMatch φ d lm lm') :
    Both (fun x y => (x.1.length ≤ L ∧ Pointwise (CostMatch φ d) x.1 y.1) ∧ CostMatch φ (L * (d + ε)) x.2 y.2)
      (HubState.histRow F.arith hist lm prev) (HubState.histRow Arith.xr hist' lm' prev') := by
  obtain ⟨l1, h1⟩ := h1
  obtain ⟨l2, h2⟩ := h2
  have hl := h1.length_eq
  have hl2 := h2.length_eq
  have htail : Pointwise (CostMatch φ d) prev.tail prev'.tail := by
    cases h2 with
    | nil => exact .nil
    | cons _ h => exact h
  have hdrop : ∀ {l l' : List XR} (i : Nat), Pointwise (CostMatch φ d) l l' → Pointwise (CostMatch φ d) (l.drop i) (l'.drop i) := by
    intro l l' i h
    induction h generalizing i with
    | nil => simpa using Pointwise.nil
    | cons r h ih =>
      cases i with
      | zero => exact .cons r h
      | succ i => simpa using ih i
  have hlast : ∀ {l l' : List XR}, Pointwise (CostMatch φ d) l l' → Pointwise (CostMatch φ d) l.dropLast l'.dropLast := by
    intro l l' h
    induction h with
    | nil => exact .nil
    | cons r h ih =>
      cases h with
      | nil => exact .nil
      | cons r' h' => exact .cons r ih
  have hpos : hist ≠ [] → 0 < L := by intro h; have := List.length_pos_iff.2 h; omega
  cases h1 with
  | nil => exact .error _
  | @cons a b as bs r h =>
    have hb1 : Pointwise (CostMatch φ d) (a :: as) (b :: bs) := .cons r h
    simp only [HubState.histRow]
    rw [hl, hl2]
    split
    · next hlen =>
      refine .ok ⟨⟨?_, ?_⟩, ?_⟩
      · simp only [List.length_append, List.length_drop, List.length_dropLast, List.length_tail, List.length_cons, List.length_nil] at *
        omega
      · have := htail.length_eq
        rw [this]
        exact Ppm.Pointwise.append htail (hdrop _ (Ppm.Pointwise.append (hlast hb1) (.cons h3 .nil)))
      · have fold : ∀ {l l' : List XR} {c c' : XR} {e : ℝ}, Pointwise (CostMatch φ d) l l' → CostMatch φ e c c' →
            CostMatch φ (e + l.length * (d + ε)) (l.foldl F.times c) (l'.foldl XR.add c') := by
          intro l l' c c' e h
          induction h generalizing c c' e with
          | nil => intro hc; simpa using hc
          | cons r _ ih =>
            intro hc
            refine (ih (CostMatch.times F hc r)).le (le_of_eq ?_)
            rw [List.length_cons]
            push_cast
            ring
        have hL := hpos (by simp)
        refine (fold htail h3).le ?_
        have h5 : ((prev.tail.length : Nat) : ℝ) + 1 ≤ L := by
          have : prev.tail.length + 1 ≤ L := by rw [List.length_tail]; omega
          exact_mod_cast this
        have h6 : 0 ≤ d + ε := by linarith
        nlinarith
    · exact .error _

theorem histRows_twin (hd : 0 ≤ d) (hε : 0 ≤ ε) {lms lms' : List XR} (h0 : Pointwise (CostMatch φ d) lms lms') :
    ∀ {hs hs' ps ps' : List (List XR)} {ss ss' : List XR},
    Pointwise (fun r r' : List XR => r.length ≤ L ∧ Pointwise (CostMatch φ d) r r') hs hs' → Pointwise (CostMatch φ (L * (d + ε))) ss ss' →
    Pointwise (fun r r' : List XR => r.length ≤ L ∧ Pointwise (CostMatch φ d) r r') ps ps' →
    Both (fun x y => Pointwise (fun r r' : List XR => r.length ≤ L ∧ Pointwise (CostMatch φ d) r r') x.1 y.1 ∧
      Pointwise (CostMatch φ (L * (d + ε))) x.2 y.2) (HubState.histRows F.arith lms hs ss ps) (HubState.histRows Arith.xr lms' hs' ss' ps') := by
  induction h0 with
  | nil => intro hs hs' ps ps' ss ss' h1 h2 h3; exact .ok ⟨h1, h2⟩
  | cons r _ ih =>
    intro hs hs' ps ps' ss ss' h1 h2 h3
    cases h1 with
    | nil => simp only [HubState.histRows]; exact .error _
    | cons r1 h1 =>
      cases h2 with
      | nil => simp only [HubState.histRows]; exact .error _
      | cons r2 h2 =>
        cases h3 with
        | nil => simp only [HubState.histRows]; exact .error _
        | cons r3 h3 =>
          simp only [HubState.histRows]
          exact (histRow_twin (F := F) hd hε r1 r3 r).bind fun x y hx => (ih h1 h2 h3).bind fun z t hz => .ok ⟨.cons hx.1 hz.1, .cons hx.2 hz.2⟩

theorem nextAll_twin (hp : ops.Pair F ops' R d n V N) {st st' : HubState XR} (hs : StateTwin φ ε d L st st') (c : Int) {ms : List σ} {ms' : List τ}
    (hm : Pointwise (R k) ms ms') : ∀ i : Nat, (nextAll ops st c i ms).1 = (nextAll ops' st' c i ms').1 ∧
      Pointwise (R k) (nextAll ops st c i ms).2 (nextAll ops' st' c i ms').2 := by
  induction hm with
  | nil => intro i; exact ⟨rfl, .nil⟩
  | @cons m m' ms ms' r _ ih =>
    intro i
    obtain ⟨i1, i2⟩ := ih (i + 1)
    have h0 := hp.next k m m' (st.modelState i) c r
    simp only [nextAll]
    rw [← hs.modelState i]
    exact ⟨by rw [h0.1, i1], .cons h0.2 i2⟩

theorem scoreAll_twin (hp : ops.Pair F ops' R d n V N) (hk : k ≤ N) {st st' : HubState XR} (hs : StateTwin φ ε d L st st') (c : Int) {ms : List σ}
    {ms' : List τ} (hm : Pointwise (R k) ms ms') : ∀ i : Nat, Pointwise (CostMatch φ d) (scoreAll ops st c i ms).1 (scoreAll ops' st' c i ms').1 ∧
      Pointwise (R k) (scoreAll ops st c i ms).2 (scoreAll ops' st' c i ms').2 := by
  induction hm with
  | nil => intro i; exact ⟨.nil, .nil⟩
  | @cons m m' ms ms' r _ ih =>
    intro i
    obtain ⟨i1, i2⟩ := ih (i + 1)
    have h0 := hp.score k m m' (st.modelState i) c r hk
    simp only [scoreAll]
    rw [← hs.modelState i]
    exact ⟨.cons h0.2 i1, .cons h0.1 i2⟩

variable {h : Hub F.arith σ} {h' : Hub Arith.xr τ}

theorem HubTwin.len (ht : HubTwin F R d w k L h h') : h.states.length = h'.states.length := ht.states.length_eq

theorem HubTwin.valid (ht : HubTwin F R d w k L h h') (s : Int) : h.valid s = h'.valid s := by
  unfold Hub.valid; rw [ht.len]

theorem HubTwin.setStates (ht : HubTwin F R d w k L h h') {ss ss' : List (HubState XR)} (hs : Pointwise (StateTwin φ ε d L) ss ss') :
    HubTwin F R d w k L { h with states := ss } { h' with states := ss' } :=
  ⟨hs, ht.last, ht.max, ht.weights, ht.hlen, ht.isLen, ht.models, ht.selfRecycled⟩

theorem HubTwin.setModels {j : Nat} (ht : HubTwin F R d w k L h h') {ms : List σ} {ms' : List τ} (hs : Pointwise (R j) ms ms') :
    HubTwin F R d w j L { h with models := ms } { h' with models := ms' } :=
  ⟨ht.states, ht.last, ht.max, ht.weights, ht.hlen, ht.isLen, hs, ht.selfRecycled⟩

theorem updateBayesian_twin (hp : env.Pair F env'.toLMOps R d n V N) (hk : k ≤ N) (hd : 0 ≤ d) (hε : 0 ≤ ε) (ht : HubTwin F R d w k L h h') (s : Nat) :
    Both (HubTwin F R d w k L) (updateBayesianHistory env h s) (updateBayesianHistory env' h' s) := by
  unfold updateBayesianHistory
  by_cases h0 : h'.hlen = 0
  · rw [if_pos (ht.hlen.trans h0), if_pos h0]; exact .ok ht
  · rw [if_neg (fun e => h0 (ht.hlen.symm.trans e)), if_neg h0]
    have h1 := Ppm.Pointwise.opt ht.states s
    generalize h.states[s]? = x at h1
    generalize h'.states[s]? = y at h1
    cases h1 with
    | none => exact .error _
    | @some st st' h1 =>
      simp only
      have hpr := h1.prev
      by_cases h0' : st'.prev < 0
      · rw [if_pos (by omega), if_pos h0']; exact .ok ht
      · rw [if_neg (by omega), if_neg h0']
        have h2 := Ppm.Pointwise.opt ht.states st'.prev.toNat
        have hpe : h.states[st.prev.toNat]? = h.states[st'.prev.toNat]? := by rw [hpr]
        rw [hpe]
        generalize h.states[st'.prev.toNat]? = x at h2
        generalize h'.states[st'.prev.toNat]? = y at h2
        cases h2 with
        | none => exact .error _
        | @some pst pst' h2 =>
          simp only
          obtain ⟨s1, s2⟩ := scoreAll_twin hp hk h2 st.sym ht.models 0
          have esym : scoreAll env'.toLMOps pst' st'.sym 0 h'.models = scoreAll env'.toLMOps pst' st.sym 0 h'.models := by rw [h1.sym]
          rw [esym]
          have h3 := histRows_twin (F := F) hd hε s1 h1.hist h1.sums h2.hist
          generalize HubState.histRows F.arith (scoreAll env.toLMOps pst st.sym 0 h.models).1 st.hist st.histSum pst.hist = a at h3
          generalize HubState.histRows Arith.xr (scoreAll env'.toLMOps pst' st.sym 0 h'.models).1 st'.hist st'.histSum pst'.hist = b at h3
          cases h3 with
          | error f => exact .error f
          | @ok a b h3 =>
            obtain ⟨a1, a2⟩ := a
            obtain ⟨b1, b2⟩ := b
            simp only at h3 ⊢
            refine .ok ?_
            have hst : StateTwin φ ε d L { st with hist := a1, histSum := a2 } { st' with hist := b1, histSum := b2 } :=
              ⟨h1.modelStates, h1.prev, h1.nexts, h1.sym, h3.1, h3.2⟩
            exact (ht.setStates (Ppm.Pointwise.set ht.states hst s)).setModels s2

theorem resetPrevs_twin : ∀ (ks : List Nat) {ss ss' : List (HubState XR)}, Pointwise (StateTwin φ ε d L) ss ss' →
    Both (Pointwise (StateTwin φ ε d L)) (resetPrevs (A := F.arith) ss ks) (resetPrevs (A := Arith.xr) ss' ks) := by
  intro ks
  induction ks with
  | nil => intro ss ss' h; exact .ok h
  | cons k ks ih =>
    intro ss ss' h
    simp only [resetPrevs]
    have h1 := Ppm.Pointwise.opt h k
    generalize ss[k]? = x at h1
    generalize ss'[k]? = y at h1
    cases h1 with
    | none => exact .error _
    | some h1 => exact ih (Ppm.Pointwise.set h h1.resetPrev k)

/-- both absent, or both present and related -/
inductive Opts {α β : Type} (Q : α → β → Prop) : Option α → Option β → Prop
  | none : Opts Q none none
  | some {a b} : Q a b → Opts Q (some a) (some b)

theorem stUpdate_twin (oN : List (Int × Nat) → List (Int × Nat)) {st st' new new' : HubState XR} (h1 : StateTwin φ ε d L st st')
    (h2 : StateTwin φ ε d L new new') :
    Opts (fun x y => StateTwin φ ε d L x.1 y.1 ∧ x.2 = y.2) (st.updateHubState oN new) (st'.updateHubState oN new') := by
  unfold HubState.updateHubState
  have e : (st.modelStates.length ≠ new.modelStates.length) ↔ (st'.modelStates.length ≠ new'.modelStates.length) := by
    rw [h1.modelStates, h2.modelStates]
  by_cases h0 : st'.modelStates.length ≠ new'.modelStates.length
  · rw [if_pos (e.2 h0), if_pos h0]; exact .none
  · rw [if_neg (fun x => h0 (e.1 x)), if_neg h0]
    refine .some ⟨⟨?_, h2.prev, rfl, h2.sym, h2.hist, h2.sums⟩, ?_⟩
    · simp only
      rw [h1.modelStates]
      exact List.map_congr_left fun i _ => h2.modelState i
    · simp only
      rw [h1.nexts]

theorem updateHub_twin (hε : 0 ≤ ε) (hd : 0 ≤ d) (hoN : env.orderN = env'.orderN) (ht : HubTwin F R d w k L h h') (idx : Nat) (ms : List Int)
    (prev sym : Int) : Both (Opts (HubTwin F R d w k L)) (updateHubState env h idx ms prev sym) (updateHubState env' h' idx ms prev sym) := by
  unfold updateHubState
  have h1 := Ppm.Pointwise.opt ht.states idx
  generalize h.states[idx]? = x at h1
  generalize h'.states[idx]? = y at h1
  cases h1 with
  | none => exact .error _
  | @some st st' h1 =>
    simp only
    have hnew := StateTwin.mk' (F := F) (φ := φ) (L := L) hε hd ms prev sym
    have e1 : h.hlen = L := ht.isLen
    have e2 : h'.hlen = L := ht.hlen.symm.trans ht.isLen
    have hnew' : StateTwin φ ε d L (HubState.mk' F.arith ms prev sym h.hlen) (HubState.mk' Arith.xr ms prev sym h'.hlen) := by
      rw [e1, e2]; exact hnew
    have h2 := stUpdate_twin env'.orderN h1 hnew'
    rw [hoN]
    generalize st.updateHubState env'.orderN (HubState.mk' F.arith ms prev sym h.hlen) = a at h2
    generalize st'.updateHubState env'.orderN (HubState.mk' Arith.xr ms prev sym h'.hlen) = b at h2
    cases h2 with
    | none => exact .ok .none
    | @some a b h2 =>
      obtain ⟨a1, a2⟩ := a
      obtain ⟨b1, b2⟩ := b
      obtain ⟨h2, e⟩ := h2
      simp only at h2 e
      subst e
      exact (resetPrevs_twin (F := F) _ (Ppm.Pointwise.set ht.states h2 idx)).bind fun a b hab => .ok (.some (ht.setStates hab))

theorem initializeStart_twin (hε : 0 ≤ ε) (hd : 0 ≤ d) (hp : env.Pair F env'.toLMOps R d n V N) (hoN : env.orderN = env'.orderN)
    (ht : HubTwin F R d w k L h h') : Both (Opts (HubTwin F R d w k L)) (initializeStart env h) (initializeStart env' h') := by
  unfold initializeStart
  have : h.models.map env.start = h'.models.map env'.start := by
    have hm := ht.models
    generalize h.models = a at hm
    generalize h'.models = b at hm
    induction hm with
    | nil => rfl
    | cons r _ ih => rw [List.map_cons, List.map_cons, ih, hp.start _ _ _ r]
  rw [this]
  exact updateHub_twin hε hd hoN ht 0 _ _ _

/-- the end of `AssignNewHubState` -/
def finishNew {A : Arith} {σ : Type} (env : Env A σ) (prev : Nat) (c : Int) (h : Hub A σ) (idx : Nat) : Except Fault (Option Nat × Hub A σ) :=
  match h.states[prev]? with
  | none => .error .ub
  | some pst => do
    let h2 ← updateBayesianHistory env { h with
      last := idx
      states := h.states.set prev (pst.addNextState c idx)
      selfRecycled := h.selfRecycled || idx == prev } idx
    .ok (some idx, h2)

/-- a new state in the place of an old one -/
def recycleNew {A : Arith} {σ : Type} (env : Env A σ) (ms : List Int) (prev : Nat) (c : Int) (h : Hub A σ) (idx : Nat) :
    Except Fault (Option Nat × Hub A σ) := do
  match ← updateHubState env h idx ms prev c with
  | none => .ok (none, h)
  | some h => finishNew env prev c h idx

theorem assignNew_parts {A : Arith} {σ : Type} (env : Env A σ) (h : Hub A σ) (ms : List Int) (prev : Nat) (c : Int) :
    assignNew env h ms prev c = if h.max ≤ h.states.length then
      if h.max ≤ h.last + 1 then do
        match ← initializeStart env h with
        | none => .ok (none, h)
        | some h => recycleNew env ms prev c h 1
      else recycleNew env ms prev c h (h.last + 1)
    else finishNew env prev c { h with states := h.states ++ [HubState.mk' A ms prev c h.hlen] } h.states.length := rfl

theorem finishNew_twin (hε : 0 ≤ ε) (hd : 0 ≤ d) (hp : env.Pair F env'.toLMOps R d n V N) (hk : k ≤ N) (ht : HubTwin F R d w k L h h') (prev : Nat)
    (c : Int) (idx : Nat) :
    Both (fun x y => x.1 = y.1 ∧ HubTwin F R d w k L x.2 y.2) (finishNew env prev c h idx) (finishNew env' prev c h' idx) := by
  unfold finishNew
  have h1 := Ppm.Pointwise.opt ht.states prev
  generalize h.states[prev]? = x at h1
  generalize h'.states[prev]? = y at h1
  cases h1 with
  | none => exact .error _
  | @some pst pst' h1 =>
    refine (updateBayesian_twin hp hk hd hε (w := w) (L := L) ?_ idx).bind fun a b hab => .ok ⟨rfl, hab⟩
    exact ⟨Ppm.Pointwise.set ht.states (h1.addNext c idx) prev, rfl, ht.max, ht.weights, ht.hlen, ht.isLen, ht.models, by
      show (h.selfRecycled || idx == prev) = (h'.selfRecycled || idx == prev)
      rw [ht.selfRecycled]⟩

theorem recycleNew_twin (hε : 0 ≤ ε) (hd : 0 ≤ d) (hp : env.Pair F env'.toLMOps R d n V N) (hk : k ≤ N) (hoN : env.orderN = env'.orderN)
    (ht : HubTwin F R d w k L h h') (ms : List Int) (prev : Nat) (c : Int) (idx : Nat) :
    Both (fun x y => x.1 = y.1 ∧ HubTwin F R d w k L x.2 y.2) (recycleNew env ms prev c h idx) (recycleNew env' ms prev c h' idx) := by
  unfold recycleNew
  refine (updateHub_twin hε hd hoN ht idx ms prev c).bind fun a b hab => ?_
  cases hab with
  | none => exact .ok ⟨rfl, ht⟩
  | some hab => exact finishNew_twin hε hd hp hk hab prev c idx

theorem assignNew_twin (hε : 0 ≤ ε) (hd : 0 ≤ d) (hp : env.Pair F env'.toLMOps R d n V N) (hk : k ≤ N) (hoN : env.orderN = env'.orderN)
    (ht : HubTwin F R d w k L h h') (ms : List Int) (prev : Nat) (c : Int) :
    Both (fun x y => x.1 = y.1 ∧ HubTwin F R d w k L x.2 y.2) (assignNew env h ms prev c) (assignNew env' h' ms prev c) := by
  rw [assignNew_parts, assignNew_parts]
  have e1 := ht.max
  have e2 := ht.len
  have e3 := ht.last
  by_cases c1 : h'.max ≤ h'.states.length
  · rw [if_pos (by omega), if_pos c1]
    by_cases c2 : h'.max ≤ h'.last + 1
    · rw [if_pos (by omega), if_pos c2]
      refine (initializeStart_twin hε hd hp hoN ht).bind fun a b hab => ?_
      cases hab with
      | none => exact .ok ⟨rfl, ht⟩
      | some hab => exact recycleNew_twin hε hd hp hk hoN hab ms prev c 1
    · rw [if_neg (by omega), if_neg c2, e3]
      exact recycleNew_twin hε hd hp hk hoN ht ms prev c (h'.last + 1)
  · rw [if_neg (by omega), if_neg c1]
    have e4 : h.hlen = L := ht.isLen
    have e5 : h'.hlen = L := ht.hlen.symm.trans ht.isLen
    have hst : StateTwin φ ε d L (HubState.mk' F.arith ms prev c h.hlen) (HubState.mk' Arith.xr ms prev c h'.hlen) := by
      rw [e4, e5]; exact StateTwin.mk' (F := F) hε hd ms prev c
    have := finishNew_twin hε hd hp hk (ht.setStates (Ppm.Pointwise.append ht.states (.cons hst .nil))) prev c h'.states.length
    rw [e2]
    exact this

theorem nextState_twin (hε : 0 ≤ ε) (hd : 0 ≤ d) (hp : env.Pair F env'.toLMOps R d n V N) (hk : k ≤ N) (hoN : env.orderN = env'.orderN)
    (ht : HubTwin F R d w k L h h') (s c : Int) :
    Both (fun x y => x.1 = y.1 ∧ HubTwin F R d w k L x.2 y.2) (nextState env h s c) (nextState env' h' s c) := by
  unfold nextState
  simp only
  rw [ht.valid s]
  generalize (if h'.valid s = true then s.toNat else 0) = i
  have h1 := Ppm.Pointwise.opt ht.states i
  generalize h.states[i]? = x at h1
  generalize h'.states[i]? = y at h1
  cases h1 with
  | none => exact .error _
  | @some st st' h1 =>
    simp only
    rw [h1.nextState c]
    split
    · exact .ok ⟨rfl, ht⟩
    · obtain ⟨n1, n2⟩ := nextAll_twin hp h1 c ht.models 0
      rw [n1]
      have h2 := assignNew_twin hε hd hp hk hoN (ht.setModels n2) (nextAll env'.toLMOps st' c 0 h'.models).1 i c
      generalize assignNew env { h with models := (nextAll env.toLMOps st c 0 h.models).2 } (nextAll env'.toLMOps st' c 0 h'.models).1 i c = a at h2
      generalize assignNew env' { h' with models := (nextAll env'.toLMOps st' c 0 h'.models).2 } (nextAll env'.toLMOps st' c 0 h'.models).1 i c = b at h2
      cases h2 with
      | error f => exact .error f
      | @ok a b h2 =>
        obtain ⟨a1, a2⟩ := a
        obtain ⟨b1, b2⟩ := b
        obtain ⟨e, h2⟩ := h2
        simp only at e h2
        subst e
        cases a1 with
        | none => exact .ok ⟨rfl, h2⟩
        | some a1 => exact .ok ⟨rfl, h2⟩

theorem contextLoop_twin (hε : 0 ≤ ε) (hd : 0 ≤ d) (hp : env.Pair F env'.toLMOps R d n V N) (hk : k ≤ N) (hoN : env.orderN = env'.orderN)
    (cs : List Int) : ∀ {h : Hub F.arith σ} {h' : Hub Arith.xr τ} (s : Int), HubTwin F R d w k L h h' →
    Both (fun x y => x.1 = y.1 ∧ HubTwin F R d w k L x.2 y.2) (contextLoop env h s cs) (contextLoop env' h' s cs) := by
  induction cs with
  | nil => intro h h' s ht; exact .ok ⟨rfl, ht⟩
  | cons c cs ih =>
    intro h h' s ht
    simp only [contextLoop]
    refine (nextState_twin hε hd hp hk hoN ht s c).bind fun a b hab => ?_
    rw [hab.1]
    exact ih _ hab.2

theorem ensureStates_twin (hε : 0 ≤ ε) (hd : 0 ≤ d) (hp : env.Pair F env'.toLMOps R d n V N) (hk : k ≤ N) (hoN : env.orderN = env'.orderN)
    (cs : List Int) : ∀ {h : Hub F.arith σ} {h' : Hub Arith.xr τ} (s : Int), HubTwin F R d w k L h h' →
    Both (HubTwin F R d w k L) (ensureStates env h s cs) (ensureStates env' h' s cs) := by
  induction cs with
  | nil => intro h h' s ht; exact .ok ht
  | cons c cs ih =>
    intro h h' s ht
    simp only [ensureStates]
    refine (nextState_twin hε hd hp hk hoN ht s c).bind fun a b hab => ?_
    rw [hab.1]
    exact ih _ hab.2

theorem historyEach_twin (hε : 0 ≤ ε) (hd : 0 ≤ d) (hp : env.Pair F env'.toLMOps R d n V N) (hk : k ≤ N)
    (es : List (Int × Nat)) : ∀ {h : Hub F.arith σ} {h' : Hub Arith.xr τ}, HubTwin F R d w k L h h' →
    Both (HubTwin F R d w k L) (historyEach env h es) (historyEach env' h' es) := by
  induction es with
  | nil => intro h h' ht; exact .ok ht
  | cons e es ih =>
    intro h h' ht
    simp only [historyEach]
    exact (updateBayesian_twin hp hk hd hε ht e.2).bind fun a b hab => ih hab

theorem historyLoop_twin (hε : 0 ≤ ε) (hd : 0 ≤ d) (hp : env.Pair F env'.toLMOps R d n V N) (hk : k ≤ N) (hoN : env.orderN = env'.orderN)
    (cs : List Int) : ∀ {h : Hub F.arith σ} {h' : Hub Arith.xr τ} (s : Int), HubTwin F R d w k L h h' →
    Both (HubTwin F R d w k L) (historyLoop env h s cs) (historyLoop env' h' s cs) := by
  induction cs with
  | nil => intro h h' s ht; exact .ok ht
  | cons c cs ih =>
    intro h h' s ht
    simp only [historyLoop]
    split
    · exact .error _
    · have h1 := Ppm.Pointwise.opt ht.states s.toNat
      generalize h.states[s.toNat]? = x at h1
      generalize h'.states[s.toNat]? = y at h1
      cases h1 with
      | none => exact .error _
      | @some st st' h1 =>
        simp only
        rw [hoN, h1.nexts]
        refine (historyEach_twin hε hd hp hk _ ht).bind fun a b hab => ?_
        refine (nextState_twin hε hd hp hk hoN hab s c).bind fun p q hpq => ?_
        rw [hpq.1]
        exact ih _ hpq.2

theorem updateLoop_twin (hp : env.Pair F env'.toLMOps R d n V N) {st st' : HubState XR} (hs : StateTwin φ ε d L st st') (cs : List Int) (count : Int)
    {ws ws' : List XR} {Q : XR → XR → Prop} (hw : Pointwise Q ws ws') : ∀ (i : Nat) {ms : List σ} {ms' : List τ}, Pointwise (R k) ms ms' →
    Both (fun x y => x.1 = y.1 ∧ Pointwise (R (k + cs.length * count.toNat)) x.2 y.2) (updateLoop env st cs count i ws ms)
      (updateLoop env' st' cs count i ws' ms') := by
  have up : ∀ {ms : List σ} {ms' : List τ}, Pointwise (R k) ms ms' → Pointwise (R (k + cs.length * count.toNat)) ms ms' :=
    fun h => h.mono fun _ _ h => hp.mono _ _ _ _ h (Nat.le_add_right _ _)
  induction hw with
  | nil => intro i ms ms' hm; exact .ok ⟨rfl, up hm⟩
  | cons _ _ ih =>
    intro i ms ms' hm
    cases hm with
    | nil => exact .error _
    | @cons m m' ms ms' r hm =>
      simp only [updateLoop]
      obtain ⟨u1, u2⟩ := hp.update k m m' (st.modelState i) cs count r
      rw [← hs.modelState i]
      rcases hx : env.update m (st.modelState i) cs count with ⟨b, m1⟩
      rcases hy : env'.update m' (st.modelState i) cs count with ⟨b', m1'⟩
      rw [hx, hy] at u1 u2
      simp only at u1 u2
      subst u1
      cases b with
      | false => exact .ok ⟨rfl, .cons u2 (up hm)⟩
      | true => exact (ih (i + 1) hm).bind fun a b hab => .ok ⟨hab.1, .cons u2 hab.2⟩

theorem verifyLoop_twin (hp : env.Pair F env'.toLMOps R d n V N) (cs : List Int) : ∀ {h : Hub F.arith σ} {h' : Hub Arith.xr τ} (s : Nat),
    HubTwin F R d w k L h h' → Both (fun x y => x.1 = y.1 ∧ HubTwin F R d w k L x.2 y.2) (verifyLoop env h s cs) (verifyLoop env' h' s cs) := by
  induction cs with
  | nil => intro h h' s ht; exact .ok ⟨rfl, ht⟩
  | cons c cs ih =>
    intro h h' s ht
    simp only [verifyLoop]
    have h1 := Ppm.Pointwise.opt ht.states s
    generalize h.states[s]? = x at h1
    generalize h'.states[s]? = y at h1
    cases h1 with
    | none => exact .error _
    | @some st st' h1 =>
      simp only
      rw [h1.nexts]
      cases HubState.lookup st'.nexts c with
      | none => exact .ok ⟨rfl, ht⟩
      | some j =>
        simp only
        obtain ⟨n1, n2⟩ := nextAll_twin hp h1 c ht.models 0
        have h2 := Ppm.Pointwise.opt ht.states j
        generalize h.states[j]? = x at h2
        generalize h'.states[j]? = y at h2
        cases h2 with
        | none => exact .error _
        | @some kst kst' h2 =>
          simp only
          have hv : Both (fun x y => x.1 = y.1 ∧ StateTwin φ ε d L x.2 y.2) (kst.verifyOrCorrect s c (nextAll env.toLMOps st c 0 h.models).1)
              (kst'.verifyOrCorrect s c (nextAll env'.toLMOps st' c 0 h'.models).1) := by
            rw [n1]
            unfold HubState.verifyOrCorrect
            have c1 : (kst.prev ≠ s ∨ kst.sym ≠ c) ↔ (kst'.prev ≠ s ∨ kst'.sym ≠ c) := by rw [h2.prev, h2.sym]
            have c2 : kst.modelStates.length = kst'.modelStates.length := by rw [h2.modelStates]
            by_cases q1 : kst'.prev ≠ s ∨ kst'.sym ≠ c
            · rw [if_pos (c1.2 q1), if_pos q1]; exact .ok ⟨rfl, h2⟩
            · rw [if_neg (fun x => q1 (c1.1 x)), if_neg q1]
              by_cases q2 : (nextAll env'.toLMOps st' c 0 h'.models).1.length ≤ kst'.modelStates.length
              · rw [if_pos (by omega), if_pos q2]
                exact .ok ⟨rfl, ⟨by simp only; rw [h2.modelStates], h2.prev, h2.nexts, h2.sym, h2.hist, h2.sums⟩⟩
              · rw [if_neg (by omega), if_neg q2]; exact .error _
          refine hv.bind fun a b hab => ?_
          have ht2 : HubTwin F R d w k L { h with states := h.states.set j a.2, models := (nextAll env.toLMOps st c 0 h.models).2 }
              { h' with states := h'.states.set j b.2, models := (nextAll env'.toLMOps st' c 0 h'.models).2 } :=
            (ht.setStates (Ppm.Pointwise.set ht.states hab.2 j)).setModels n2
          rw [hab.1]
          split
          · exact ih j ht2
          · exact .ok ⟨rfl, ht2⟩

theorem updateLMCounts_twin (hε : 0 ≤ ε) (hd : 0 ≤ d) (hp : env.Pair F env'.toLMOps R d n V N) (hk : k ≤ N) (hoN : env.orderN = env'.orderN)
    (ht : HubTwin F R d w k L h h') (s : Int) (cs : List Int) (count : Int) :
    Both (fun x y => x.1 = y.1 ∧ HubTwin F R d w (k + cs.length * count.toNat) L x.2 y.2) (updateLMCounts env h s cs count)
      (updateLMCounts env' h' s cs count) := by
  have up : ∀ {h : Hub F.arith σ} {h' : Hub Arith.xr τ}, HubTwin F R d w k L h h' → HubTwin F R d w (k + cs.length * count.toNat) L h h' :=
    fun ht => ht.setModels (ht.models.mono fun _ _ h => hp.mono _ _ _ _ h (Nat.le_add_right _ _))
  unfold updateLMCounts
  simp only
  rw [ht.valid s]
  refine (ensureStates_twin hε hd hp hk hoN cs s ht).bind fun a b hab => ?_
  have h2 : Both (HubTwin F R d w k L) (if 0 < a.hlen then historyLoop env a s cs else .ok a) (if 0 < b.hlen then historyLoop env' b s cs else .ok b) := by
    rw [hab.hlen]
    split
    · exact historyLoop_twin hε hd hp hk hoN cs s hab
    · exact .ok hab
  refine h2.bind fun p q hpq => ?_
  split
  · have h1 := Ppm.Pointwise.opt hpq.states s.toNat
    generalize p.states[s.toNat]? = x at h1
    generalize q.states[s.toNat]? = y at h1
    cases h1 with
    | none => exact .error _
    | @some st st' h1 =>
      refine (updateLoop_twin hp h1 cs count hpq.weights.2 0 hpq.models).bind fun u v huv => ?_
      have ht2 := hpq.setModels huv.2
      rw [huv.1]
      split
      · exact verifyLoop_twin hp cs s.toNat ht2
      · exact .ok ⟨rfl, ht2⟩
  · exact .ok ⟨rfl, up hpq⟩

end
end Mozolm.Hub
