import Verif.Ppm.Accuracy
import Verif.Ppm.Monotone

/-! # The PPM model with rounding and without, call by call -/

namespace Mozolm.Ppm
open XR Real
open scoped BigOperators

theorem Norm.unique {f : Fst XR} {alpha : ℝ} {V s : Nat} {p q : ℝ} (h : Norm f alpha V s p) (h' : Norm f alpha V s q) : p = q := by
  induction h generalizing q with
  | unigram hb =>
    cases h' with
    | unigram => rfl
    | unseen hb' => rw [hb] at hb'; cases hb'
    | seen hb' => exact absurd (hb.symm.trans hb') (by simp)
  | unseen hb h0 _ ih =>
    cases h' with
    | unigram hb' => exact absurd (hb.symm.trans hb') (by simp)
    | unseen hb' _ h2 => rw [hb] at hb'; cases hb'; exact ih h2
    | seen _ h0' => rw [h0] at h0'; exact absurd h0' (lt_irrefl _)
  | seen hb h0 =>
    cases h' with
    | unigram hb' => exact absurd (hb.symm.trans hb') (by simp)
    | unseen _ h0' => rw [h0'] at h0; exact absurd h0 (lt_irrefl _)
    | seen => rfl

theorem Observed.total_le {c c' : Core XR} {ord ord' : Nat → Nat} {V u s : Nat} {y : Int}
    (wf : WF Arith.xr OkR c.fst ord c.maxOrder V u) (h : Observed Arith.xr OkR c c' ord ord' V u s y)
    (hy0 : 0 ≤ y) (hyV : y ≤ V) {x : Nat} (hx : x < c.fst.states.length) : Ppm.total c.fst V x ≤ Ppm.total c'.fst V x := by
  by_cases hex : Excluded Arith.xr c.fst y s x
  · rw [h.total wf hy0 hyV hx hex]; linarith
  · rw [total_congr (h.outside x hx hex)]

theorem Observes.total_le {c c' : Core Arith.xr.C} {ord ord' : Nat → Nat} {V u : Nat} {l : List (Nat × Int)}
    (h : Observes Arith.xr OkR V u c ord l c' ord') (wf : WF Arith.xr OkR c.fst ord c.maxOrder V u) {x : Nat}
    (hx : x < c.fst.states.length) : Ppm.total c.fst V x ≤ Ppm.total c'.fst V x := by
  induction h with
  | nil => exact le_refl _
  | cons h1 h2 h3 hobs _ ih => exact (hobs.total_le wf h2 h3 hx).trans (ih hobs.wf (lt_of_lt_of_le hx hobs.len))

theorem Observes.order {A : Arith} {Ok : A.C → Prop} {c c' : Core A.C} {ord ord' : Nat → Nat} {V u : Nat} {l : List (Nat × Int)}
    (h : Observes A Ok V u c ord l c' ord') : c'.maxOrder = c.maxOrder := by
  induction h with
  | nil => rfl
  | cons h1 h2 h3 hobs _ ih => rw [ih, hobs.maxOrder]

section
variable {φ : Prop} {ε δ : ℝ} {F : Rounding φ ε δ} {hε : 0 ≤ ε} {alpha beta T K : ℝ} {hb : 0 < beta} {hb1 : beta * exp (2 * ε) < 1}

/-- The model with rounding and the model without, after the same calls. -/
structure Tandem (F : Rounding φ ε δ) (hε : 0 ≤ ε) (hb : 0 < beta) (hb1 : beta * exp (2 * ε) < 1) (alpha : ℝ) (V N : Nat) (mF : Model F.arith)
    (m : Model Arith.xr) : Prop where
  twin : ModelTwin (twin F hε hb hb1) mF m
  rounded : ∃ ord u, Inv F.arith (OkF ε) mF ord V u
  plain : ∃ ord u, Inv Arith.xr OkR m ord V u
  totals : Totals m.core.fst V
  alphaF : mF.alpha = .fin alpha
  alphaR : m.alpha = .fin alpha
  order : m.core.maxOrder = (N : Int) + 1

/-- no context was observed more than `T` times -/
def Within (T : ℝ) (V : Nat) (f : Fst XR) : Prop := ∀ s : Nat, s < f.states.length → total f V s ≤ T

theorem Observes.within {c c' : Core Arith.xr.C} {ord ord' : Nat → Nat} {V u : Nat} {l : List (Nat × Int)}
    (h : Observes Arith.xr OkR V u c ord l c' ord') (wf : WF Arith.xr OkR c.fst ord c.maxOrder V u)
    (hw : Within T V c'.fst) : Within T V c.fst := fun s hs => (h.total_le wf hs).trans (hw s (lt_of_lt_of_le hs h.len))

variable {V N : Nat} {mF mF' : Model F.arith} {m m' : Model Arith.xr}

theorem scoreError_mono (hδ0 : 0 ≤ δ) (hδ1 : δ < 1) (hε : 0 ≤ ε) (hT : 0 ≤ T) (hK0 : 0 ≤ K) {k n : Nat} (h : k ≤ n) :
    scoreError ε δ T K V k ≤ scoreError ε δ T K V n := by
  unfold scoreError
  have hsl := slack_nonneg hδ0 hδ1
  have hstep : 0 ≤ stepError ε δ T K V := by unfold stepError; positivity
  have : (k : ℝ) ≤ n := by exact_mod_cast h
  nlinarith

theorem within_nonneg {f : Fst XR} {ord : Nat → Nat} {mo : Int} {u : Nat} (wf : WF Arith.xr OkR f ord mo V u) (h : Within T V f) : 0 ≤ T :=
  (wf.total_nonneg u).trans (h u wf.u_lt)

/-- the vectors of a state in both -/
theorem Tandem.data (hδ0 : 0 ≤ δ) (hδ1 : δ < 1) (ha : 0 < alpha) (hK0 : 0 ≤ K) (hK : beta * exp ((T + 1) * ε) * (K + 1) ≤ K)
    (h : Tandem F hε hb hb1 alpha V N mF m) (hT : Within T V m.core.fst) {s : Nat} (hs : s < mF.core.fst.states.length) :
    ∃ (dF : Data F.arith.C) (d : Data Arith.xr.C) (p : ℕ → ℝ) (n : ℝ), Ideal F.arith mF.core.fst mF.alpha mF.beta s dF ∧ dF.Sized (A := F.arith) (V + 1) ∧
      Ideal Arith.xr m.core.fst m.alpha m.beta s d ∧ d.Sized (A := Arith.xr) (V + 1) ∧ Dist m.core.fst alpha beta V s d p n ∧
      DistNear φ (scoreError ε δ T K V N) ((T + V + 1) * ε) m.core.fst ε alpha beta V s dF p n := by
  obtain ⟨ordF, uF, iF⟩ := h.rounded
  obtain ⟨ord, u, i⟩ := h.plain
  have hs' : s < m.core.fst.states.length := by rw [h.twin.core.fst.length]; exact hs
  obtain ⟨dF, hdF, hzF⟩ := iF.wf.ideal iF.laws mF.alpha s hs
  obtain ⟨d, hd, hz⟩ := i.wf.ideal i.laws m.alpha s hs'
  have hbl1 : beta < 1 := by
    have : (1 : ℝ) ≤ exp (2 * ε) := Real.one_le_exp (by linarith)
    nlinarith
  have hd' := hd
  rw [h.alphaR, h.twin.beta'] at hd'
  have hdF' := hdF
  rw [h.alphaF, h.twin.beta] at hdF'
  obtain ⟨p, n, hp⟩ := ideal_dist i.wf h.totals ha hb hbl1 s hs' d hd'
  obtain ⟨p', n', hp'⟩ := ideal_near (T := T) hδ0 hδ1 ha h.twin.core.fst i.wf h.totals hT hK0 hK s hs dF hdF'
  have hpp : ∀ y ≤ V, p' y = p y := fun y hy => (hp'.prob y hy).unique (hp.prob y hy)
  have hnn : n' = n := hp'.isNorm.unique hp.isNorm
  have hord : ord s ≤ N := by
    have := i.wf.ord_lt hs'
    rw [h.order] at this; omega
  refine ⟨dF, d, p, n, hdF, hzF, hd, hz, hp, ⟨hp'.costs.length, fun y hy => ?_, hp'.costs.sum⟩, hp.prob, hp.pos, hp.sum, ?_, hp.isNorm, hp.norm_pos⟩
  · obtain ⟨c, h1, h2⟩ := hp'.costs.near y hy
    rw [hpp y (by omega)] at h2
    exact ⟨c, h1, h2.mono (scoreError_mono hδ0 hδ1 hε (within_nonneg i.wf hT) hK0 hord)⟩
  · rw [← hnn]; exact hp'.norm

/-- after observations in both -/
theorem Tandem.after (h : Tandem F hε hb hb1 alpha V N mF m) (ht : ModelTwin (Ppm.twin F hε hb hb1) mF' m')
    (hF : ∀ {ord : Nat → Nat} {u : Nat}, Inv F.arith (OkF ε) mF ord V u → ∃ ord' l, Params mF mF' ∧ CacheOk mF' None' ∧
      Observes F.arith (OkF ε) V u mF.core ord l mF'.core ord')
    (hR : ∀ {ord : Nat → Nat} {u : Nat}, Inv Arith.xr OkR m ord V u → ∃ ord' l, Params m m' ∧ CacheOk m' None' ∧
      Observes Arith.xr OkR V u m.core ord l m'.core ord') :
    Tandem F hε hb hb1 alpha V N mF' m' ∧ ∀ {T : ℝ}, Within T V m'.core.fst → Within T V m.core.fst := by
  obtain ⟨ordF, uF, iF⟩ := h.rounded
  obtain ⟨ord, u, i⟩ := h.plain
  obtain ⟨ordF', lF, f1, f2, f3⟩ := hF iF
  obtain ⟨ord', l, r1, r2, r3⟩ := hR i
  exact ⟨⟨ht, ⟨_, _, iF.after f3 f1 f2⟩, ⟨_, _, i.after r3 r1 r2⟩, r3.totals i.wf h.totals, by rw [f1.alpha, h.alphaF],
    by rw [r1.alpha, h.alphaR], by rw [r3.order, h.order]⟩, fun hw => r3.within i.wf hw⟩

end

/-! ## `GetNegLogProbs` -/

section
variable {A : Arith} {Ok : A.C → Prop}

/-- what `GetNegLogProbs` does after the cost of a symbol: observe it, and go to the next state -/
def advance (s y : Int) : PM A Int := do
  let static ← PM.reads fun m => pure m.static
  whenM (!static) (do
    let o ← getArcOriginState s y
    let _ ← observe s o y
    pure ())
  getDestinationState s y

theorem bind_error' {α γ : Type} {x : PM A α} {f : α → PM A γ} {m : Model A} {e : Fault}
    (h : x m = .error e) : (x >>= f) m = .error e := by
  have : (x >>= f) m = match x m with
    | .error e => Except.error e
    | .ok (none, m') => Except.ok (none, m')
    | .ok (some a, m') => f a m' := rfl
  rw [this, h]

theorem getNegLogProbsFrom_cons (s y : Int) (ys : List Int) {m m1 m2 : Model A} {w : A.C} {t : Int}
    (h1 : getNegLogProb s y m = .ok (some w, m1)) (h2 : advance s y m1 = .ok (some t, m2)) :
    getNegLogProbsFrom s (y :: ys) m = (getNegLogProbsFrom t ys >>= fun cs => (pure (w :: cs) : PM A (List A.C))) m2 := by
  have h0 : getNegLogProbsFrom (A := A) s (y :: ys) = getNegLogProb s y >>= fun w => (PM.reads fun m : Model A => (pure m.static : Res Bool)) >>= fun static =>
      whenM (!static) (do
        let o ← getArcOriginState s y
        let _ ← observe s o y
        pure ()) >>= fun _ => getDestinationState s y >>= fun t => getNegLogProbsFrom t ys >>= fun cs => (pure (w :: cs) : PM A (List A.C)) := rfl
  rw [h0, PM.bind_some h1]
  unfold advance at h2
  have hr : (PM.reads fun m : Model A => (pure m.static : Res Bool)) m1 = .ok (some m1.static, m1) := rfl
  rw [PM.bind_some hr] at h2 ⊢
  match hx : whenM (!m1.static) (do
    let o ← getArcOriginState s y
    let _ ← observe s o y
    pure ()) m1 with
  | .error e => rw [bind_error' hx] at h2; cases h2
  | .ok (none, m1') => rw [PM.bind_none hx] at h2; cases h2
  | .ok (some _, m1') =>
    rw [PM.bind_some hx] at h2 ⊢
    rw [PM.bind_some h2]

theorem advance_action {V u : Nat} {g : Sig A} {ord : Nat → Nat} (L : CountLaws A Ok g.beta)
    (wf : WF A Ok g.core.fst ord g.core.maxOrder V u) (ho : g.static = false → OrdersOk g.core ord) {s : Nat}
    (hs : s < g.core.fst.states.length) {y : Int} (hy0 : 0 ≤ y) (hyV : y ≤ V) :
    ∃ (t : Nat) (c1 : Core A.C) (ord1 : Nat → Nat) (l : List (Nat × Int)), Observes A Ok V u g.core ord l c1 ord1 ∧
      t < c1.fst.states.length ∧ Action (advance (s : Int) y) g (t : Int) c1 := by
  have hobs : ∃ (c1 : Core A.C) (ord1 : Nat → Nat) (h1 : List (Nat × Int)),
      Observes A Ok V u g.core ord h1 c1 ord1 ∧
      Action (whenM (!g.static) (do
        let o ← getArcOriginState (s : Int) y
        let _ ← observe (s : Int) o y
        pure ())) g () c1 := by
    cases hst : g.static with
    | true => exact ⟨g.core, ord, [], .nil, whenM_action (fun h => by simp at h) (fun _ => rfl)⟩
    | false =>
      obtain ⟨o, horig⟩ := wf.origin L hy0 hyV s hs
      have p1 := (getArcOrigin_query L wf hs hy0 hyV horig).action
      obtain ⟨t1, c1, ord1, e1, _, e3⟩ := observe_action L wf (ho hst) hs hy0 hyV horig
      have p3 : Action (pure () : PM A Unit) { g with core := c1 } () c1 :=
        fun m hm hc => ⟨m, rfl, Params.refl m, sig_core hm, hc⟩
      exact ⟨c1, ord1, _, .cons hs hy0 hyV e1 .nil,
        whenM_action (fun _ => Action.bind p1 (Action.bind e3 p3)) (fun h => by simp at h)⟩
  obtain ⟨c1, ord1, l, o1, o3⟩ := hobs
  have hlen := o1.len
  obtain ⟨o, t, t1, t2, t3, t4⟩ := getDestination_query (g := { g with core := c1 }) L (o1.wf wf) (s := s)
    (by simp only; omega) hy0 hyV
  refine ⟨t, c1, ord1, l, o1, t3, ?_⟩
  unfold advance
  exact Action.bind (b := g.static) (reads_action (fun m hm => by rw [sig_static hm])) (Action.bind o3 t4.action)

theorem getNegLogProb_fail {V u : Nat} {g : Sig A} {ord : Nat → Nat} (L : CountLaws A Ok g.beta)
    (wf : WF A Ok g.core.fst ord g.core.maxOrder V u) {s : Nat} (hs : s < g.core.fst.states.length) {y : Int}
    (hy : ¬ (0 ≤ y ∧ y ≤ (V : Int))) : Effect (getNegLogProb (A := A) (s : Int) y) g none g.core := by
  intro m hm hc
  obtain ⟨d, hd, hsz⟩ := wf.ideal L g.alpha s hs
  obtain ⟨e, m', e1, e2, e3, e4⟩ := ensure_query L wf hs hd m hm hc
  refine ⟨m', ?_, e3.params, by rw [e3.core]; exact sig_core hm, e4⟩
  unfold getNegLogProb
  rw [PM.bind_some e1]
  unfold PM.reads
  rw [verified_fail (by rw [e2, hsz.2.2]; omega)]; rfl

theorem advance_twin {B : Arith} {beta : A.D} {beta' : B.D} {R : Twin A B beta beta'} (s y : Int) : Match R Eq (advance s y) (advance s y) := by
  unfold advance
  refine (Match.same fun m n hm => by rw [hm.static]).seq fun static => ?_
  refine (whenM_twin ?_).seq fun _ => ?_
  · refine (getArcOriginState_twin s y).seq fun o => ?_
    exact (observe_twin s o y).seq fun _ => Match.pure rfl
  exact getDestinationState_twin s y

end

section
variable {φ : Prop} {ε δ : ℝ} {F : Rounding φ ε δ} {hε : 0 ≤ ε} {alpha beta T K : ℝ} {hb : 0 < beta} {hb1 : beta * exp (2 * ε) < 1}
variable {V N : Nat}

theorem logProbs_near (hδ0 : 0 ≤ δ) (hδ1 : δ < 1) (ha : 0 < alpha) (hK0 : 0 ≤ K) (hK : beta * exp ((T + 1) * ε) * (K + 1) ≤ K) (ys : List Int) :
    ∀ {mF mF' : Model F.arith} {m m' : Model Arith.xr} {s : Nat} {rF : Option (List F.arith.C)} {r : Option (List Arith.xr.C)},
    Tandem F hε hb hb1 alpha V N mF m → s < mF.core.fst.states.length →
    getNegLogProbsFrom (s : Int) ys mF = .ok (rF, mF') → getNegLogProbsFrom (s : Int) ys m = .ok (r, m') → Within T V m'.core.fst →
    OptTwin (Pointwise (CostTwin φ (scoreError ε δ T K V N))) rF r := by
  induction ys with
  | nil =>
    intro mF mF' m m' s rF r _ _ hF hR _
    have e1 : (some [], mF) = (rF, mF') := by injection hF
    have e2 : (some [], m) = (r, m') := by injection hR
    rw [← (Prod.mk.inj e1).1, ← (Prod.mk.inj e2).1]
    exact .some .nil
  | cons y ys ih =>
    intro mF mF' m m' s rF r h hs hF hR hT
    have hs' : s < m.core.fst.states.length := by rw [h.twin.core.fst.length]; exact hs
    obtain ⟨ordF, uF, iF⟩ := h.rounded
    obtain ⟨ord, u, i⟩ := h.plain
    by_cases hy : 0 ≤ y ∧ y ≤ (V : Int)
    · -- what was observed before
      obtain ⟨r0, c0, ord0, l0, k1, _, k3, _⟩ := getNegLogProbsFrom_effect (y :: ys) (g := m.sig) i.laws i.wf i.orders hs'
      obtain ⟨m0, k4, _, k5, _⟩ := k3 m rfl i.cache
      rw [hR] at k4
      injection k4 with k4
      obtain ⟨_, rfl⟩ := Prod.mk.inj k4
      rw [← k5] at k1
      have hTm : Within T V m.core.fst := Observes.within k1 i.wf hT
      obtain ⟨dF, d, p, n, x1, x2, x3, x4, x5, x6⟩ := h.data hδ0 hδ1 ha hK0 hK hTm hs
      obtain ⟨k, rfl⟩ := Int.eq_ofNat_of_zero_le hy.1
      obtain ⟨wF, hwF, hnear⟩ := x6.costs.near k (by omega)
      have hw : d.costs[k]? = some (costOf (p k)) := by
        rw [x5.costs, List.getElem?_map, List.getElem?_range (by omega)]; rfl
      obtain ⟨mF1, a1, a2, a3⟩ := getNegLogProb_query (g := mF.sig) iF.laws iF.wf hs x1 hwF mF rfl iF.cache
      obtain ⟨m1, b1, b2, b3⟩ := getNegLogProb_query (g := m.sig) i.laws i.wf hs' x3 hw m rfl i.cache
      have ht1 := getNegLogProb_twin (R := Ppm.twin F hε hb hb1) s k mF m h.twin
      rw [show ((k : Nat) : Int) = (k : Int) from rfl] at ht1
      rw [a1, b1] at ht1
      cases ht1 with
      | ok _ ht1 =>
      obtain ⟨h1, _⟩ := h.after ht1
        (fun {ord u} _ => ⟨ord, [], a2.params, a3, by rw [a2.core]; exact .nil⟩)
        (fun {ord u} _ => ⟨ord, [], b2.params, b3, by rw [b2.core]; exact .nil⟩)
      obtain ⟨ordF1, uF1, iF1⟩ := h1.rounded
      obtain ⟨ord1, u1, i1⟩ := h1.plain
      obtain ⟨tF, cF2, ordF2, lF2, c1, c2, c3⟩ := advance_action (g := mF1.sig) iF1.laws iF1.wf iF1.orders (s := s)
        (by show s < mF1.core.fst.states.length; rw [a2.core]; exact hs) hy.1 hy.2
      obtain ⟨t, cR2, ordR2, lR2, d1, d2, d3⟩ := advance_action (g := m1.sig) i1.laws i1.wf i1.orders (s := s)
        (by show s < m1.core.fst.states.length; rw [b2.core]; exact hs') hy.1 hy.2
      obtain ⟨mF2, a4, a5, a6, a7⟩ := c3 mF1 rfl iF1.cache
      obtain ⟨m2, b4, b5, b6, b7⟩ := d3 m1 rfl i1.cache
      have ht2 := advance_twin (R := Ppm.twin F hε hb hb1) s k mF1 m1 ht1
      rw [a4, b4] at ht2
      cases ht2 with
      | ok htt ht2 =>
      have htt' : tF = t := by exact_mod_cast htt
      subst htt'
      subst a6
      subst b6
      have h2 : Tandem F hε hb hb1 alpha V N mF2 m2 := ⟨ht2, ⟨_, _, iF1.after c1 a5 a7⟩, ⟨_, _, i1.after d1 b5 b7⟩, d1.totals i1.wf h1.totals,
        by rw [a5.alpha, h1.alphaF], by rw [b5.alpha, h1.alphaR], by rw [d1.order]; exact h1.order⟩
      rw [getNegLogProbsFrom_cons _ _ _ a1 a4] at hF
      rw [getNegLogProbsFrom_cons _ _ _ b1 b4] at hR
      have hcost : CostTwin φ (scoreError ε δ T K V N) wF (costOf (p k)) := ⟨p k, (x5.pos k (by omega)).le, rfl, hnear⟩
      have ht3 := getNegLogProbsFrom_twin (R := Ppm.twin F hε hb hb1) ys tF mF2 m2 ht2
      match hxF : getNegLogProbsFrom (tF : Int) ys mF2, hxR : getNegLogProbsFrom (tF : Int) ys m2, ht3 with
      | .error e, .error e', ht3 => rw [bind_error' hxF] at hF; cases hF
      | .ok (none, a), .ok (none, b), ht3 =>
        rw [PM.bind_none hxF] at hF
        rw [PM.bind_none hxR] at hR
        cases hF; cases hR
        exact .none
      | .ok (some lF, a), .ok (some l, b), ht3 =>
        rw [PM.bind_some hxF] at hF
        rw [PM.bind_some hxR] at hR
        have e1 : (some (wF :: lF), a) = (rF, mF') := by injection hF
        have e2 : (some (costOf (p k) :: l), b) = (r, m') := by injection hR
        obtain ⟨e3, e4⟩ := Prod.mk.inj e1
        obtain ⟨e5, e6⟩ := Prod.mk.inj e2
        have := ih h2 c2 hxF hxR (by rw [e6]; exact hT)
        rw [← e3, ← e5]
        cases this with
        | some hp => exact .some (.cons hcost hp)
    · obtain ⟨mF1, a1, _⟩ := getNegLogProb_fail (g := mF.sig) iF.laws iF.wf hs hy mF rfl iF.cache
      obtain ⟨m1, b1, _⟩ := getNegLogProb_fail (g := m.sig) i.laws i.wf hs' hy m rfl i.cache
      unfold getNegLogProbsFrom at hF hR
      rw [PM.bind_none a1] at hF
      rw [PM.bind_none b1] at hR
      cases hF; cases hR
      exact .none

end
end Mozolm.Ppm
