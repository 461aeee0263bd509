import Verif.NGram.AccuracySpec
import Verif.Props.NGramNumeric
import Verif.TwinLemmas

/-! # The character n-gram model with rounding and without, side by side -/

namespace Mozolm.NGram
open XR Real Ppm

variable {φ : Prop} {ε δ e : ℝ} {F : Rounding φ ε δ} {f : Fst XR}

theorem weight_self (hw : Weighted f) {s : Int} {st : FState XR} (hst : f.state? s = some st) :
    CostTwin φ 0 st.final st.final ∧ ∀ a ∈ st.arcs, CostTwin φ 0 a.weight a.weight := by
  have hm : st ∈ f.states := by
    unfold Fst.state? at hst
    split at hst
    · cases hst
    · exact List.mem_of_getElem? hst
  exact ⟨CostTwin.self (hw st hm).1, fun a ha => CostTwin.self ((hw st hm).2 a ha)⟩

/-- the same search in both -/
theorem matchFirst_twin (hw : Weighted f) {s : Int} {st : FState XR} (hst : f.state? s = some st) {label : Int} {a : XR × Int}
    (h : Fst.matchFirst (.fin 0) st s label = some a) : CostTwin φ 0 a.1 a.1 := by
  unfold Fst.matchFirst at h
  split at h
  · cases h; exact CostTwin.zero le_rfl
  · split at h
    · next x hx => cases h; exact (weight_self hw hst).2 _ (List.mem_of_find?_eq_some hx)
    · cases h

/-- one step of backing off in both -/
theorem getBackoff_twin (hw : Weighted f) (s : Int) :
    Both (fun x y => x = y ∧ CostTwin φ 0 x.2 y.2) (getBackoff F.arith f s) (getBackoff Arith.xr f s) := by
  unfold getBackoff
  by_cases hs : s = -1
  · rw [if_pos hs, if_pos hs]; exact .ok ⟨rfl, CostTwin.zero le_rfl⟩
  · rw [if_neg hs, if_neg hs]
    cases hst : f.state? s with
    | none => exact .error _
    | some st =>
      simp only
      cases hf : st.arcs.find? (fun a => a.label == 0 && (a.next : Int) != s) with
      | none => exact .ok ⟨rfl, CostTwin.zero le_rfl⟩
      | some a => exact .ok ⟨rfl, (weight_self hw hst).2 _ (List.mem_of_find?_eq_some hf)⟩

/-- at an existing state without a bound on backing off there is none -/
theorem getBackoff_walk {s : Nat} {x : Int × XR} (h : getBackoff Arith.xr f s = .ok x) :
    x.1 = -1 ∨ ∃ t : Nat, x.1 = t ∧ IsBackoff f s x.2 t := by
  have hs : s < f.states.length := by
    by_contra hn
    unfold getBackoff at h
    rw [if_neg (by omega), state?_nat, List.getElem?_eq_none (by omega)] at h
    cases h
  rcases getBackoff_spec (A := Arith.xr) f hs with ⟨w, t, h1, h2⟩ | ⟨_, h2⟩
  · rw [h2] at h; cases h; exact .inr ⟨t, rfl, h1⟩
  · rw [h2] at h; cases h; exact .inl rfl

theorem labelLoop_twin (hε : 0 ≤ ε) (hw : Weighted f) (label : Int) : ∀ (k s fuel : Nat) {e : ℝ} {c c' : XR},
    (∀ ws t, Walk f s ws t → ws.length ≤ k) → CostTwin φ e c c' →
    Both (CostTwin φ (e + (k + 1) * ε)) (labelLoop F.arith f label fuel s c) (labelLoop Arith.xr f label fuel s c') := by
  intro k
  induction k with
  | zero =>
    intro s fuel e c c' hk hc
    cases fuel with
    | zero => exact .error _
    | succ n =>
      simp only [labelLoop]
      rw [if_neg (by omega), if_neg (by omega)]
      cases hst : f.state? s with
      | none => exact .error _
      | some st =>
        simp only
        cases hm : Fst.matchFirst (.fin 0) st s label with
        | some a => exact .ok ((CostTwin.times F hc (matchFirst_twin hw hst hm)).le (by simp))
        | none =>
          simp only
          have hb := getBackoff_twin (F := F) hw (s : Int)
          cases hx : getBackoff Arith.xr f s with
          | error y => rw [hx] at hb; generalize getBackoff F.arith f s = z at hb; cases hb; exact .error _
          | ok y =>
            obtain ⟨z, hz, hzy, hzt⟩ := hb.of_ok' hx
            rw [hz]
            subst hzy
            simp only [ok_bind]
            rcases getBackoff_walk hx with h1 | ⟨t, _, h1⟩
            · rw [h1]
              cases n with
              | zero => exact .error _
              | succ n =>
                simp only [labelLoop]
                exact .ok CostTwin.inf
            · have := hk _ _ (.step h1 (.here _)); simp at this
  | succ k ih =>
    intro s fuel e c c' hk hc
    cases fuel with
    | zero => exact .error _
    | succ n =>
      simp only [labelLoop]
      rw [if_neg (by omega), if_neg (by omega)]
      cases hst : f.state? s with
      | none => exact .error _
      | some st =>
        simp only
        cases hm : Fst.matchFirst (.fin 0) st s label with
        | some a =>
          refine .ok ((CostTwin.times F hc (matchFirst_twin hw hst hm)).le ?_)
          push_cast
          nlinarith [Nat.cast_nonneg (α := ℝ) k]
        | none =>
          simp only
          have hb := getBackoff_twin (F := F) hw (s : Int)
          cases hx : getBackoff Arith.xr f s with
          | error y => rw [hx] at hb; generalize getBackoff F.arith f s = z at hb; cases hb; exact .error _
          | ok y =>
            obtain ⟨z, hz, hzy, hzt⟩ := hb.of_ok' hx
            rw [hz]
            subst hzy
            simp only [ok_bind]
            rcases getBackoff_walk hx with h1 | ⟨t, h0, h1⟩
            · rw [h1]
              cases n with
              | zero => exact .error _
              | succ n =>
                simp only [labelLoop]
                exact .ok CostTwin.inf
            · rw [h0]
              refine (ih t n (fun ws u hwk => ?_) (CostTwin.times F hc hzt)).mono fun a b h => h.le ?_
              · have := hk _ _ (.step h1 hwk); simpa using this
              · push_cast; linarith

theorem finalLoop_twin (hε : 0 ≤ ε) (hw : Weighted f) : ∀ (k s fuel : Nat) {e : ℝ} {c c' : XR},
    (∀ ws t, Walk f s ws t → ws.length ≤ k) → CostTwin φ e c c' →
    Both (CostTwin φ (e + (k + 1) * ε)) (finalLoop F.arith f fuel s c) (finalLoop Arith.xr f fuel s c') := by
  intro k
  induction k with
  | zero =>
    intro s fuel e c c' hk hc
    cases fuel with
    | zero => exact .error _
    | succ n =>
      simp only [finalLoop]
      have hb := getBackoff_twin (F := F) hw (s : Int)
      cases hx : getBackoff Arith.xr f s with
      | error y => rw [hx] at hb; generalize getBackoff F.arith f s = z at hb; cases hb; exact .error _
      | ok y =>
        obtain ⟨z, hz, hzy, hzt⟩ := hb.of_ok' hx
        rw [hz]
        subst hzy
        simp only [ok_bind]
        rcases getBackoff_walk hx with h1 | ⟨t, _, h1⟩
        · rw [h1, if_pos (by omega), if_pos (by omega)]; exact .ok CostTwin.inf
        · have := hk _ _ (.step h1 (.here _)); simp at this
  | succ k ih =>
    intro s fuel e c c' hk hc
    cases fuel with
    | zero => exact .error _
    | succ n =>
      simp only [finalLoop]
      have hb := getBackoff_twin (F := F) hw (s : Int)
      cases hx : getBackoff Arith.xr f s with
      | error y => rw [hx] at hb; generalize getBackoff F.arith f s = z at hb; cases hb; exact .error _
      | ok y =>
        obtain ⟨z, hz, hzy, hzt⟩ := hb.of_ok' hx
        rw [hz]
        subst hzy
        simp only [ok_bind]
        rcases getBackoff_walk hx with h1 | ⟨t, h0, h1⟩
        · rw [h1, if_pos (by omega), if_pos (by omega)]; exact .ok CostTwin.inf
        · rw [h0, if_neg (by omega), if_neg (by omega)]
          cases hst : f.state? (t : Int) with
          | none => exact .error _
          | some st =>
            simp only
            have hc2 := CostTwin.times F hc hzt
            by_cases hi : st.final = .pinf
            · rw [if_pos (by simp [hi]), if_pos (by simp [hi])]
              refine (ih t n (fun ws u hwk => ?_) hc2).mono fun a b h => h.le ?_
              · have := hk _ _ (.step h1 hwk); simpa using this
              · push_cast; linarith
            · rw [if_neg (by simp [hi]), if_neg (by simp [hi])]
              refine .ok ((CostTwin.times F (weight_self hw hst).1 hc2).le ?_)
              push_cast
              nlinarith [Nat.cast_nonneg (α := ℝ) k]

/-- the cost of a label in both -/
theorem labelCost_twin (hε : 0 ≤ ε) (hw : Weighted f) {n : Nat} (hd : Deep f n) (s fuel : Nat) (label : Int) :
    Both (CostTwin φ (symbolError ε n)) (labelCostInState F.arith f fuel s label) (labelCostInState Arith.xr f fuel s label) := by
  have h0 : (0 : ℝ) ≤ symbolError ε n := by unfold symbolError; positivity
  unfold labelCostInState
  by_cases hl : label = 0
  · rw [if_pos hl, if_pos hl]
    unfold finalCostInState
    cases hst : f.state? (s : Int) with
    | none => exact .error _
    | some st =>
      simp only
      by_cases hi : st.final = .pinf
      · rw [if_pos (by simp [hi]), if_pos (by simp [hi])]
        refine (finalLoop_twin (F := F) hε hw n s fuel (hd s) (CostTwin.zero le_rfl)).mono fun a b h => h.le ?_
        unfold symbolError; linarith
      · rw [if_neg (by simp [hi]), if_neg (by simp [hi])]
        exact .ok ((weight_self hw hst).1.le h0)
  · rw [if_neg hl, if_neg hl]
    refine (labelLoop_twin (F := F) hε hw label n s fuel (hd s) (CostTwin.zero le_rfl)).mono fun a b h => h.le ?_
    unfold symbolError; linarith

theorem costsOf_twin (hε : 0 ≤ ε) (hw : Weighted f) {n : Nat} (hd : Deep f n) (s fuel : Nat) (labels : List Int) :
    Both (Pointwise (CostTwin φ (symbolError ε n))) (costsOf F.arith f fuel s labels) (costsOf Arith.xr f fuel s labels) := by
  induction labels with
  | nil => exact .ok .nil
  | cons l ls ih =>
    simp only [costsOf]
    exact (labelCost_twin hε hw hd s fuel l).bind fun a b h => ih.bind fun as bs hs => .ok (.cons h hs)

theorem getBackoff_same (s : Int) : (getBackoff F.arith f s : Except Fault (Int × XR)) = getBackoff Arith.xr f s := by
  unfold getBackoff
  by_cases hs : s = -1
  · rw [if_pos hs, if_pos hs]
  · rw [if_neg hs, if_neg hs]
    cases f.state? s with
    | none => rfl
    | some st =>
      simp only
      cases st.arcs.find? (fun a => a.label == 0 && (a.next : Int) != s) with
      | none => rfl
      | some a => rfl

/-- the same next states -/
theorem nextModelState_twin (unigram label : Int) : ∀ (fuel : Nat) (s : Int),
    nextModelState F.arith f unigram label fuel s = nextModelState Arith.xr f unigram label fuel s := by
  intro fuel
  induction fuel with
  | zero => intro s; rfl
  | succ n ih =>
    intro s
    simp only [nextModelState]
    by_cases hs : s = -1
    · rw [if_pos hs, if_pos hs]
    · rw [if_neg hs, if_neg hs]
      cases hst : f.state? s with
      | none => rfl
      | some st =>
        simp only
        cases hm : Fst.matchFirst (.fin 0) st s label with
        | some a => rfl
        | none =>
          have hg : (getBackoff F.arith f s : Except Fault (Int × XR)) = getBackoff Arith.xr f s :=
            getBackoff_same s
          simp only [hg]
          cases getBackoff Arith.xr f s with
          | error y => rfl
          | ok y => simp only [ok_bind]; exact ih _

/-- where the string may end, the end of string has a finite cost -/
theorem ends_finite (hw : Weighted f) (hn : Ends f) (fuel s : Nat) {c : XR} (h : finalCostInState Arith.xr f fuel s = .ok c) :
    ∃ x, c = .fin x := by
  have num : ∀ (s : Nat) st, f.states[s]? = some st → ¬ st.final = .pinf → ∃ x, st.final = .fin x := by
    intro s st hst hi
    obtain ⟨p, p0, hp⟩ := (hw st (List.mem_of_getElem? hst)).1
    rcases p0.eq_or_lt with h0 | h0
    · rw [← h0, costOf_zero] at hp; exact absurd hp hi
    · rw [costOf_pos h0] at hp; exact ⟨_, hp⟩
  have loop : ∀ (fuel s : Nat) (st : FState XR) (x : ℝ) {c : XR}, f.states[s]? = some st → st.final = .pinf →
      finalLoop Arith.xr f fuel s (.fin x) = .ok c → ∃ x, c = .fin x := by
    intro fuel
    induction fuel with
    | zero => intro s st x c _ _ h; cases h
    | succ n ih =>
      intro s st x c hst hinf h
      simp only [finalLoop] at h
      rcases getBackoff_spec (A := Arith.xr) f (lt_of_getElem?_eq_some hst) with ⟨w, t, h1, h2⟩ | ⟨h1, _⟩
      · rw [h2] at h
        simp only [ok_bind] at h
        obtain ⟨y, rfl⟩ := hn.1 s w t h1
        rw [if_neg (by omega), state?_nat] at h
        cases hst' : f.states[t]? with
        | none => rw [hst'] at h; cases h
        | some st' =>
          rw [hst'] at h
          simp only at h
          split at h
          · next hi => exact ih t st' (x + y) hst' (by simpa using hi) h
          · next hi =>
            obtain ⟨z, hz⟩ := num t st' hst' (by simpa using hi)
            rw [hz] at h
            cases h
            exact ⟨_, rfl⟩
      · obtain ⟨z, hz⟩ := hn.2 s st hst h1
        rw [hinf] at hz; cases hz
  unfold finalCostInState at h
  rw [state?_nat] at h
  cases hst : f.states[s]? with
  | none => rw [hst] at h; cases h
  | some st =>
    rw [hst] at h
    simp only at h
    split at h
    · next hi => exact loop fuel s st 0 hst (by simpa using hi) h
    · next hi =>
      cases h
      exact num s st hst (by simpa using hi)

/-- the scores in both -/
theorem extract_twin (h0 : 0 ≤ ε) (h1 : δ < 1) {m : Model XR} (hw : Weighted m.fst) (hn : Ends m.fst) {n : Nat} (hd : Deep m.fst n)
    (fuel : Nat) {s : Int} {c : Nat} (hcur : checkCurrentState (A := Arith.xr) m s = c) :
    Both (ScoresTwin φ (shareError ε δ n m.symbols.tail.length.succ) (slack δ))
      (extractLMScores (A := F.arith) fuel m s) (extractLMScores (A := Arith.xr) fuel m s) := by
  have hcur' : checkCurrentState (A := F.arith) m s = c := hcur
  unfold extractLMScores
  simp only [hcur, hcur']
  have hl : ∀ l : List Int, ∀ cs, costsOf Arith.xr m.fst fuel c l = .ok cs → cs.length = l.length := by
    intro l
    induction l with
    | nil => intro cs h; cases h; rfl
    | cons a l ih =>
      intro cs h
      simp only [costsOf] at h
      obtain ⟨x, _, h⟩ := bind_ok.1 h
      obtain ⟨xs, h2, h⟩ := bind_ok.1 h
      cases h
      simp [ih xs h2]
  have ht := costsOf_twin (F := F) h0 hw hd c fuel (0 :: m.symbols.tail.map Prod.fst)
  cases hx : costsOf Arith.xr m.fst fuel c (0 :: m.symbols.tail.map Prod.fst) with
  | error y =>
    rw [hx] at ht
    generalize costsOf F.arith m.fst fuel c (0 :: m.symbols.tail.map Prod.fst) = z at ht
    cases ht
    exact .error _
  | ok cs =>
    obtain ⟨cs', hz, hp⟩ := ht.of_ok' hx
    rw [hz]
    simp only [ok_bind]
    have hfin : ∃ x, XR.fin x ∈ cs := by
      simp only [costsOf] at hx
      obtain ⟨x, k1, k⟩ := bind_ok.1 hx
      obtain ⟨xs, _, k⟩ := bind_ok.1 k
      cases k
      unfold labelCostInState at k1
      rw [if_pos rfl] at k1
      obtain ⟨y, rfl⟩ := ends_finite hw hn fuel c k1
      exact ⟨y, by simp⟩
    obtain ⟨v, v', e1, e2, e3⟩ := softmax_twin F h0 hp hfin
    rw [e1, e2]
    simp only [ok_bind]
    refine .ok ⟨rfl, ?_, ?_⟩
    · have key : ∀ (as bs : List XR), Pointwise (CostTwin φ (2 * symbolError ε n + cs'.length * ε)) as bs →
          Pointwise (NumTwin φ (shareError ε δ n m.symbols.tail.length.succ)) (as.map F.prob) (bs.map Arith.xr.prob) := by
        intro as bs hab
        induction hab with
        | nil => exact .nil
        | cons hr _ ih =>
          refine .cons ((CostTwin.prob F h1 hr).le ?_) ih
          have : cs'.length = m.symbols.tail.length.succ := by rw [hp.length_eq, hl _ _ hx]; simp
          rw [this]
          exact le_of_eq rfl
      exact key _ _ e3
    · refine ⟨1, zero_le_one, by show XR.fin ((1 : Int) : ℝ) = XR.fin 1; simp, ?_⟩
      have := ValueNear.ofInt F h1 (n := 1) (by decide)
      simpa using this

end Mozolm.NGram
