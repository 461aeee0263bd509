import Verif.System.TandemSpec
import Verif.NGram.Accuracy
import Verif.Props.RoundingBigram
import Verif.Server.Tandem
import Verif.Server.Guard

/-! # Two servers side by side, one with rounding: components -/

namespace Mozolm.System
open XR Real

variable {φ : Prop} {ε δ : ℝ}

/-- components with rounding and without that were taught `k` times -/
inductive Twins (F : Rounding φ ε δ) (hε : 0 ≤ ε) (fuel : Nat) (d n : ℝ) (V N k : Nat) : Component F.arith → Component Arith.xr → Prop
  | bigram {m : Bigram.Model} : Bigram.WF m → 3 * slack δ + ε ≤ d → slack δ ≤ n → m.utf8.length ≤ V → Twins F hε fuel d n V N k (.bigram m) (.bigram m)
  | overflow : Twins F hε fuel d n V N k .overflow .overflow
  | char {m : NGram.Model XR} {j : Nat} : CharLive (A := Arith.xr) fuel m → NGram.Weighted m.fst → NGram.Deep m.fst j →
      NGram.shareError ε δ j (m.symbols.tail.length + 1) ≤ d → slack δ ≤ n → m.symbols.tail.length + 1 ≤ V → Twins F hε fuel d n V N k (.char m) (.char m)
  | ppm {a b T K : ℝ} {hb : 0 < b} {hb1 : b * exp (2 * ε) < 1} {W n' : Nat} {mF : Ppm.Model F.arith} {m : Ppm.Model Arith.xr} : 0 < a →
      Ppm.Tandem F hε hb hb1 a W n' mF m → Ppm.Within (T - N + k) W m.core.fst → 0 ≤ K → b * exp ((T + 1) * ε) * (K + 1) ≤ K →
      Ppm.scoreError ε δ T K W n' + slack δ ≤ d → (T + W + 1) * ε + slack δ ≤ n → W + 1 ≤ V → Twins F hε fuel d n V N k (.ppm mF) (.ppm m)

variable {F : Rounding φ ε δ} {hε : 0 ≤ ε} {fuel : Nat} {d n : ℝ} {V N k : Nat} {encode : Int → Str}

theorem CharLive.rounded {m : NGram.Model XR} (h : CharLive (A := Arith.xr) fuel m) : CharLive (A := F.arith) fuel m := ⟨h.closed, h.enough, h.unigram⟩

theorem Twins.mono {j : Nat} {m : Component F.arith} {m' : Component Arith.xr} (h : Twins F hε fuel d n V N j m m') (hjk : j ≤ k) :
    Twins F hε fuel d n V N k m m' := by
  cases h with
  | bigram h1 h2 h3 h4 => exact .bigram h1 h2 h3 h4
  | overflow => exact .overflow
  | char h1 h2 h3 h4 h5 h6 => exact .char h1 h2 h3 h4 h5 h6
  | ppm h1 h2 h3 h4 h5 h6 h7 h8 =>
    refine .ppm h1 h2 (h3.mono ?_) h4 h5 h6 h7 h8
    have : (j : ℝ) ≤ k := by exact_mod_cast hjk
    linarith

theorem Twins.live {m : Component F.arith} {m' : Component Arith.xr} (h : Twins F hε fuel d n V N k m m') :
    System.live encode fuel m ∧ System.live encode fuel m' := by
  cases h with
  | bigram h1 => exact ⟨h1, h1⟩
  | overflow => exact ⟨trivial, trivial⟩
  | char h1 => exact ⟨h1.rounded, h1⟩
  | ppm _ h =>
    obtain ⟨o1, u1, i1⟩ := h.rounded
    obtain ⟨o2, u2, i2⟩ := h.plain
    exact ⟨⟨_, _, _, _, i1⟩, ⟨_, _, _, _, i2⟩⟩

theorem Twins.ok {m : Component F.arith} {m' : Component Arith.xr} (h : Twins F hε fuel d n V N k m m') (s : Int) :
    System.ok m s ↔ System.ok m' s := by
  cases h with
  | bigram h1 => exact Iff.rfl
  | overflow => exact Iff.rfl
  | char h1 => exact Iff.rfl
  | ppm _ h =>
    have := h.twin.core.fst.length
    simp only [System.ok]
    rw [this]

theorem Twins.start {m : Component F.arith} {m' : Component Arith.xr} (h : Twins F hε fuel d n V N k m m') : System.start m = System.start m' := by
  cases h with
  | bigram h1 => rfl
  | overflow => rfl
  | char h1 => rfl
  | ppm _ h =>
    have := h.twin.core.fst.start
    simp only [System.start]
    rw [this]

/-- a call of the PPM models -/
theorem ppm_step {a b T K : ℝ} {hb : 0 < b} {hb1 : b * exp (2 * ε) < 1} {W n' : Nat} {mF mF' : Ppm.Model F.arith} {m : Ppm.Model Arith.xr} (hδ0 : 0 ≤ δ)
    (hδ1 : δ < 1) (ha : 0 < a) (h : Ppm.Tandem F hε hb hb1 a W n' mF m) (hT : Ppm.Within (T - N + k) W m.core.fst) (hK0 : 0 ≤ K)
    (hK : b * exp ((T + 1) * ε) * (K + 1) ≤ K) {op : Ppm.Op} (hv : op.Valid mF) {aF : Ppm.Answer F.arith}
    (hF : Ppm.step encode op mF = .ok (aF, mF')) :
    ∃ (y : Ppm.Answer Arith.xr) (m' : Ppm.Model Arith.xr), Ppm.step encode op m = .ok (y, m') ∧ Ppm.Tandem F hε hb hb1 a W n' mF' m' ∧
      Ppm.Within (T - N + (k + op.amount : Nat)) W m'.core.fst ∧
      (k + op.amount ≤ N → Ppm.AnswerNear F (Ppm.scoreError ε δ T K W n') (Ppm.scoreError ε δ T K W n' + slack δ) ((T + W + 1) * ε + slack δ) aF y) := by
  obtain ⟨y, m', h1, h2, h3, h4⟩ := Ppm.step_near hδ0 hδ1 ha encode h hv hF
  obtain ⟨ord, u, i⟩ := h.plain
  obtain ⟨ord', l, g1, g2, g3⟩ := Ppm.step_amount i encode h1 h2
  have hW : Ppm.Within (T - N + (k + op.amount : Nat)) W m'.core.fst := by
    refine (g1.within_add i.wf hT).mono ?_
    have : (l.length : ℝ) ≤ op.amount := by exact_mod_cast g2
    push_cast
    linarith
  refine ⟨y, m', h2, h3, hW, fun hN => ?_⟩
  have hW' : Ppm.Within T W m'.core.fst := hW.mono (by
    have : ((k + op.amount : Nat) : ℝ) ≤ N := by exact_mod_cast hN
    linarith)
  exact (h4 T hW').2 K hK0 hK

theorem ppm_listed {A : Arith} {Ok : A.C → Prop} {m m' : Ppm.Model A} {ord : Nat → Nat} {V u : Nat} (h : Ppm.Inv A Ok m ord V u) {s : Nat}
    (hs : s < m.core.fst.states.length) {r : LMScores A.D} (he : Ppm.extractLMScores (s : Int) m = .ok (some r, m')) : r.probs.length = V + 1 := by
  obtain ⟨d, hd, hsz⟩ := h.wf.ideal h.laws m.alpha s hs
  obtain ⟨r', hr, _, hp, hsy⟩ := Ppm.fill_ok hsz m.symbols
  obtain ⟨_, e1, _⟩ := Ppm.extract_query (g := m.sig) h.laws h.wf hs hd hr m rfl h.cache
  rw [he] at e1
  simp only [Except.ok.injEq, Prod.mk.injEq, Option.some.injEq] at e1
  rw [e1.1, hp, List.length_map]
  exact hsz.2.2

theorem wrap_eq {A : Arith} {β γ : Type} {f : β → γ} {g : Ppm.Model A → Except Fault (β × Ppm.Model A)} {m m' : Ppm.Model A} {b : β}
    (h : g m = .ok (b, m')) : Ppm.wrap f g m = .ok (f b, m') := by
  unfold Ppm.wrap; rw [h]

theorem numTwin {e : ℝ} {x y : XR} (h : Ppm.NumberTwin φ e x y) : NumMatch φ e x y := by
  obtain ⟨p, p0, e1, e2⟩ := h
  exact .inr ⟨p, p0.le, e1, e2⟩

/-! ## Bigram -/

theorem XR_div {a b : ℝ} (h : b ≠ 0) : XR.div (.fin a) (.fin b) = .fin (a / b) := by simp [XR.div, h]

theorem bigram_twin (h1 : δ < 1) {m : Bigram.Model} (w : Bigram.WF m) (s : Int) : ∃ r r' : LMScores XR, Bigram.extractLMScores F.arith encode m s = .ok r ∧
    Bigram.extractLMScores Arith.xr encode m s = .ok r' ∧ ScoresMatch φ (3 * slack δ) (slack δ) r r' ∧ r.probs.length = m.utf8.length := by
  obtain ⟨row, hr, hrl, hne, hc1, hn, hx⟩ := Bigram.extract_row w F.arith encode s
  obtain ⟨row', hr', _, _, _, _, hx'⟩ := Bigram.extract_row w Arith.xr encode s
  rw [hr, Option.some.injEq] at hr'
  subst hr'
  have hpos := Bigram.row_sum_pos hne hc1
  have hposR : (0 : ℝ) < (row.sum : ℝ) := by exact_mod_cast hpos
  refine ⟨_, _, hx, hx', ⟨rfl, ?_, ?_⟩, by simp [hrl]⟩
  · refine Hub.pointwise_map fun c hc => .inr ?_
    have := hc1 c hc
    have hcR : (0 : ℝ) ≤ (c : ℝ) := by exact_mod_cast (by omega : 0 ≤ c)
    have hq : (0 : ℝ) ≤ (c : ℝ) / (row.sum : ℝ) := by positivity
    refine ⟨(c : ℝ) / (row.sum : ℝ), hq, ?_, ?_⟩
    · show XR.div (.fin (c : ℝ)) (.fin ((row.sum : Int) : ℝ)) = _
      rw [XR_div hposR.ne']
    · exact (ValueNear.div F h1 hcR hposR (ValueNear.ofInt F h1 (by omega)) (ValueNear.ofInt F h1 hpos.le)).mono hq (le_of_eq (by ring))
  · exact .inr ⟨(row.sum : ℝ), hposR.le, rfl, ValueNear.ofInt F h1 hpos.le⟩

theorem bigram_cost_twin (hδ0 : 0 ≤ δ) (h1 : δ < 1) {m : Bigram.Model} (w : Bigram.WF m) (s c : Int) : ∃ x x' : XR, Bigram.symLMScore F.arith m s c = .ok x ∧
    Bigram.symLMScore Arith.xr m s c = .ok x' ∧ CostMatch φ (3 * slack δ + ε) x x' := by
  have hsl := slack_nonneg hδ0 h1
  obtain ⟨row, hr, hrl, hne, hc1, hn, hx⟩ := Bigram.extract_row w F.arith (fun _ => []) s
  have hpos := Bigram.row_sum_pos hne hc1
  have hposR : (0 : ℝ) < (row.sum : ℝ) := by exact_mod_cast hpos
  have hr' : m.counts[m.fix s]? = some row := by rw [show m.fix s = Bigram.stands m.utf8 s from Bigram.fix_eq m s]; exact hr
  unfold Bigram.symLMScore
  simp only
  by_cases hv : (m.validState (m.fix s : Int) && m.validState (Bigram.nextState m (m.fix s) c)) = true
  · rw [if_pos hv, if_pos hv]
    simp only [Bigram.Model.validState, Bool.and_eq_true, decide_eq_true_eq] at hv
    obtain ⟨x, h3⟩ := exists_getElem?_of_lt (l := row) (i := (Bigram.nextState m (m.fix s) c).toNat) (by rw [hrl]; omega)
    simp only [hr', hn, h3]
    refine ⟨_, _, rfl, rfl, ?_⟩
    have := hc1 x (List.mem_of_getElem? h3)
    have hcR : (0 : ℝ) ≤ (x : ℝ) := by exact_mod_cast (by omega : 0 ≤ x)
    have hq : (0 : ℝ) ≤ (x : ℝ) / (row.sum : ℝ) := by positivity
    have hnum : NumMatch φ (3 * slack δ) (F.ddiv (F.ofInt x) (F.ofInt row.sum)) (XR.div (.fin (x : ℝ)) (.fin ((row.sum : Int) : ℝ))) :=
      .inr ⟨(x : ℝ) / (row.sum : ℝ), hq, by rw [XR_div hposR.ne'],
        (ValueNear.div F h1 hcR hposR (ValueNear.ofInt F h1 (by omega)) (ValueNear.ofInt F h1 hpos.le)).mono hq (le_of_eq (by ring))⟩
    exact hnum.cost F
  · rw [if_neg hv, if_neg hv]
    have h0 := ValueNear.ofInt F h1 (le_refl (0 : Int))
    have hnum : NumMatch φ (3 * slack δ) (F.ofInt 0) (.fin ((0 : Int) : ℝ)) :=
      .inr ⟨((0 : Int) : ℝ), by simp, rfl, h0.mono (by simp) (by linarith)⟩
    exact ⟨_, _, rfl, rfl, hnum.cost F⟩

theorem bigram_keeps {m m' : Bigram.Model} (w : Bigram.WF m) {s : Int} {cs : List Int} {c : Int} {b : Bool}
    (h : Bigram.updateLMCounts m s cs c = .ok (b, m')) : m'.utf8 = m.utf8 := by
  unfold Bigram.updateLMCounts at h
  by_cases hn : c ≤ 0
  · rw [if_pos hn] at h; cases h; rfl
  · rw [if_neg hn] at h
    obtain ⟨m1, e1, e2⟩ := bind_ok.1 h
    cases e2
    exact ((Bigram.updateLoop_spec (cs := cs) w (w.fix_lt s) (n := c) (by omega)).1 _ e1).2.1

/-! ## The character n-gram model -/

theorem char_extract (h0 : 0 ≤ ε) (h1 : δ < 1) {m : NGram.Model XR} (hl : CharLive (A := Arith.xr) fuel m) (hw : NGram.Weighted m.fst) {j : Nat}
    (hd : NGram.Deep m.fst j) {s : Nat} (hs : s < m.fst.states.length) : ∃ r r' : LMScores XR,
    NGram.extractLMScores (A := F.arith) fuel m s = .ok r ∧ NGram.extractLMScores (A := Arith.xr) fuel m s = .ok r' ∧
      ScoresMatch φ (NGram.shareError ε δ j (m.symbols.tail.length + 1)) (slack δ) r r' ∧ r.probs.length = m.symbols.tail.length + 1 := by
  have hcur : NGram.checkCurrentState (A := Arith.xr) m s = s := check_nat (A := Arith.xr) m s
  have hcur' : NGram.checkCurrentState (A := F.arith) m s = s := hcur
  obtain ⟨cs', e1, e2⟩ := costsOf_total (A := Arith.xr) hl.closed hl.enough hs (0 :: m.symbols.tail.map Prod.fst)
  obtain ⟨cs, e3, e4⟩ := (NGram.costsOf_twin (F := F) h0 hw hd s fuel (0 :: m.symbols.tail.map Prod.fst)).of_ok' e1
  have hlen := e4.length_eq
  simp only [List.length_cons, List.length_map] at e2
  have soft : ∀ {A : Arith} (l : List A.C), l ≠ [] → Scores.softmaxRenormalize A l = .ok (Hub.normalizeWeights A l) := by
    intro A l h
    cases l with
    | nil => exact absurd rfl h
    | cons => rfl
  have hne : cs ≠ [] := by rintro rfl; simp at hlen; omega
  have hne' : cs' ≠ [] := by rintro rfl; simp at e2
  unfold NGram.extractLMScores
  simp only [hcur, hcur', e1, e3, ok_bind, soft (A := Arith.xr) cs' hne', soft (A := F.arith) cs hne]
  have hm := Hub.normalizeWeights_match F h0 (e4.mono fun _ _ h => (.inr h : CostMatch φ _ _ _))
  refine ⟨_, _, rfl, rfl, ⟨rfl, ?_, ?_⟩, ?_⟩
  · simp only
    obtain ⟨l, q1, q2, q3⟩ := Hub.pointwise_lift hm
    rw [← q1, ← q2, List.map_map, List.map_map]
    refine Hub.pointwise_map fun x hx => ?_
    refine ((q3 x hx).prob F h1).le (le_of_eq ?_)
    unfold NGram.shareError
    rw [hlen, e2]
  · have := ValueNear.ofInt F h1 (show (0 : Int) ≤ 1 by omega)
    exact .inr ⟨((1 : Int) : ℝ), by simp, rfl, this⟩
  · simp only
    rw [List.length_map, Hub.normalizeWeights_length, hlen, e2]

/-! ## All -/

open Classical in
theorem tandem_pair (hδ0 : 0 ≤ δ) (hδ1 : δ < 1) (hd : 0 ≤ d) :
    ((ops F.arith encode fuel).guard (live encode fuel) ok).Pair F ((ops Arith.xr encode fuel).guard (live encode fuel) ok)
      (Twins F hε fuel d n V N) d n V N where
  mono j k m m' h hjk := h.mono hjk
  start k m m' h := by
    exact h.start
  next k m m' s c h := by
    have hl := h.live (encode := encode)
    by_cases hs : ok m s
    · have hs' := (h.ok s).1 hs
      simp only [Hub.LMOps.guard]
      rw [if_pos ⟨hl.1, hs⟩, if_pos ⟨hl.2, hs'⟩]
      cases h with
      | bigram h1 h2 h3 h4 => exact ⟨rfl, .bigram h1 h2 h3 h4⟩
      | overflow => exact ⟨rfl, .overflow⟩
      | @char m j h1 h2 h3 h4 h5 h6 =>
        obtain ⟨s, rfl⟩ : ∃ n : Nat, s = n := ⟨_, toNat_eq hs.1⟩
        obtain ⟨r, e, _⟩ := h1.next encode c (s := s) (by have := hs.2; omega)
        have e' : NGram.nextState (A := F.arith) encode fuel m s c = .ok r := by
          rw [← e]; exact NGram.nextModelState_twin _ _ _ _
        simp only [ops, next, e, e', settle]
        exact ⟨trivial, .char h1 h2 h3 h4 h5 h6⟩
      | @ppm a b T K hb hb1 W n' mF m h1 h2 h3 h4 h5 h6 h7 h8 =>
        obtain ⟨s, rfl⟩ : ∃ n : Nat, s = n := ⟨_, toNat_eq hs.1⟩
        obtain ⟨o1, u1, i1⟩ := h2.rounded
        obtain ⟨t, m1, e1, _⟩ := ppm_next i1 encode c hs.1 hs.2
        have hs0 : s < mF.core.fst.states.length := by have : (s : Int) < (mF.core.fst.states.length : Int) := hs.2; omega
        obtain ⟨y, m2, e2, e3, e4, e5⟩ := ppm_step hδ0 hδ1 h1 h2 h3 h4 h5 (op := .next s c) hs0 (encode := encode) (wrap_eq e1)
        obtain ⟨t', e6, rfl⟩ := Ppm.wrap_ok e2
        have ht : (t : Int) = t' := by
          have := Ppm.step_twin (R := Ppm.twin F hε _ _) encode (.next s c) _ _ h2.twin
          rw [e2, show Ppm.step encode (.next s c) _ = _ from wrap_eq e1] at this
          cases this with
          | ok hat _ => cases hat; rfl
        simp only [ops, next, e1, e6, settle]
        exact ⟨ht, .ppm h1 e3 e4 h4 h5 h6 h7 h8⟩
    · have hs' : ¬ ok m' s := fun x => hs ((h.ok s).2 x)
      simp only [Hub.LMOps.guard]
      rw [if_neg (fun x => hs x.2), if_neg (fun x => hs' x.2)]
      refine ⟨?_, h⟩
      exact h.start
  extract k m m' s h hk := by
    have hl := h.live (encode := encode)
    by_cases hs : ok m s
    · have hs' := (h.ok s).1 hs
      simp only [Hub.LMOps.guard]
      rw [if_pos ⟨hl.1, hs⟩, if_pos ⟨hl.2, hs'⟩]
      cases h with
      | bigram h1 h2 h3 h4 =>
        obtain ⟨r, r', e1, e2, e3, e4⟩ := bigram_twin (F := F) (encode := encode) hδ1 h1 s
        simp only [ops, extract, e1, e2, settle]
        refine ⟨.bigram h1 h2 h3 h4, .inr ⟨r, r', rfl, rfl, e3.le (by linarith) h3, by omega⟩⟩
      | overflow => exact ⟨.overflow, .inl ⟨rfl, rfl⟩⟩
      | char h1 h2 h3 h4 h5 h6 =>
        obtain ⟨s, rfl⟩ : ∃ n : Nat, s = n := ⟨_, toNat_eq hs.1⟩
        obtain ⟨r, r', e1, e2, e3, e4⟩ := char_extract (F := F) hε hδ1 h1 h2 h3 (s := s) (by have := hs.2; omega)
        simp only [ops, extract, e1, e2, settle]
        exact ⟨.char h1 h2 h3 h4 h5 h6, .inr ⟨r, r', rfl, rfl, e3.le h4 h5, by omega⟩⟩
      | @ppm a b T K hb hb1 W n' mF m h1 h2 h3 h4 h5 h6 h7 h8 =>
        obtain ⟨s, rfl⟩ : ∃ n : Nat, s = n := ⟨_, toNat_eq hs.1⟩
        obtain ⟨o1, u1, i1⟩ := h2.rounded
        have hs0 : s < mF.core.fst.states.length := by have : (s : Int) < (mF.core.fst.states.length : Int) := hs.2; omega
        obtain ⟨r, m1, e1, _⟩ := ppm_extract i1 hs.1 hs.2
        obtain ⟨y, m2, e2, e3, e4, e5⟩ := ppm_step hδ0 hδ1 h1 h2 h3 h4 h5 (op := .scores s) hs0 (encode := encode) (wrap_eq e1)
        obtain ⟨r', e6, rfl⟩ := Ppm.wrap_ok e2
        have hlen := ppm_listed i1 hs0 e1
        simp only [ops, extract, e1, e6, settle]
        refine ⟨.ppm h1 e3 e4 h4 h5 h6 h7 h8, .inr ?_⟩
        cases e5 hk with
        | scores a1 a2 a3 =>
          exact ⟨_, _, rfl, rfl, ⟨a1, a2.mono fun _ _ h => (numTwin h).le h6, (numTwin a3).le h7⟩, by omega⟩
    · have hs' : ¬ ok m' s := fun x => hs ((h.ok s).2 x)
      simp only [Hub.LMOps.guard]
      rw [if_neg (fun x => hs x.2), if_neg (fun x => hs' x.2)]
      exact ⟨h, .inl ⟨rfl, rfl⟩⟩
  score k m m' s c h hk := by
    have hl := h.live (encode := encode)
    by_cases hs : ok m s
    · have hs' := (h.ok s).1 hs
      simp only [Hub.LMOps.guard]
      rw [if_pos ⟨hl.1, hs⟩, if_pos ⟨hl.2, hs'⟩]
      cases h with
      | bigram h1 h2 h3 h4 =>
        obtain ⟨r, r', e1, e2, e3⟩ := bigram_cost_twin (F := F) hδ0 hδ1 h1 s c
        simp only [ops, symScore, e1, e2, settle]
        exact ⟨.bigram h1 h2 h3 h4, e3.le h2⟩
      | overflow => exact ⟨.overflow, Hub.CostMatch.one hd⟩
      | @char m j h1 h2 h3 h4 h5 h6 =>
        obtain ⟨s, rfl⟩ : ∃ n : Nat, s = n := ⟨_, toNat_eq hs.1⟩
        obtain ⟨r', e1⟩ := labelCost_total (A := Arith.xr) h1.closed h1.enough (s := s) (by have := hs.2; omega) (NGram.symLabel (A := Arith.xr) encode m c)
        obtain ⟨r, e2, e3⟩ := (NGram.labelCost_twin (F := F) hε h2 h3 s fuel (NGram.symLabel (A := Arith.xr) encode m c)).of_ok' e1
        have e1 : NGram.symLMScore (A := Arith.xr) encode fuel m s c = .ok r' := e1
        have e2 : NGram.symLMScore (A := F.arith) encode fuel m s c = .ok r := e2
        simp only [ops, symScore, e1, e2, settle]
        refine ⟨.char h1 h2 h3 h4 h5 h6, .inr (e3.le (le_trans ?_ h4))⟩
        have hsl := slack_nonneg hδ0 hδ1
        have : 0 ≤ NGram.symbolError ε j := by unfold NGram.symbolError; positivity
        have h9 : 0 ≤ ((m.symbols.tail.length + 1 : Nat) : ℝ) * ε := by positivity
        unfold NGram.shareError
        linarith
      | @ppm a b T K hb hb1 W n' mF m h1 h2 h3 h4 h5 h6 h7 h8 =>
        obtain ⟨s, rfl⟩ : ∃ n : Nat, s = n := ⟨_, toNat_eq hs.1⟩
        obtain ⟨o1, u1, i1⟩ := h2.rounded
        have hs0 : s < mF.core.fst.states.length := by have : (s : Int) < (mF.core.fst.states.length : Int) := hs.2; omega
        obtain ⟨r, m1, e1, _⟩ := ppm_score i1 encode c hs.1 hs.2
        obtain ⟨y, m2, e2, e3, e4, e5⟩ := ppm_step hδ0 hδ1 h1 h2 h3 h4 h5 (op := .score s c) hs0 (encode := encode) (wrap_eq e1)
        obtain ⟨r', e6, rfl⟩ := Ppm.wrap_ok e2
        simp only [ops, symScore, e1, e6, settle]
        refine ⟨.ppm h1 e3 e4 h4 h5 h6 h7 h8, .inr ?_⟩
        have hsl := slack_nonneg hδ0 hδ1
        cases e5 hk with
        | cost hc => exact hc.le (by linarith)
    · have hs' : ¬ ok m' s := fun x => hs ((h.ok s).2 x)
      simp only [Hub.LMOps.guard]
      rw [if_neg (fun x => hs x.2), if_neg (fun x => hs' x.2)]
      exact ⟨h, Hub.CostMatch.one hd⟩
  update k m m' s cs count h := by
    have hl := h.live (encode := encode)
    by_cases hs : ok m s
    · have hs' := (h.ok s).1 hs
      simp only [Hub.LMOps.guard]
      rw [if_pos ⟨hl.1, hs⟩, if_pos ⟨hl.2, hs'⟩]
      cases h with
      | bigram h1 h2 h3 h4 =>
        rcases bigram_update h1 s cs count with ⟨m1, e, e1⟩ | ⟨f, e, e1⟩
        · simp only [ops, update, e]
          exact ⟨trivial, .bigram e1 h2 h3 (by rw [bigram_keeps h1 e]; exact h4)⟩
        · simp only [ops, update, e, e1]
          exact ⟨trivial, .overflow⟩
      | overflow => exact ⟨rfl, .overflow⟩
      | char h1 h2 h3 h4 h5 h6 => exact ⟨rfl, .char h1 h2 h3 h4 h5 h6⟩
      | @ppm a b T K hb hb1 W n' mF m h1 h2 h3 h4 h5 h6 h7 h8 =>
        obtain ⟨s, rfl⟩ : ∃ n : Nat, s = n := ⟨_, toNat_eq hs.1⟩
        obtain ⟨o1, u1, i1⟩ := h2.rounded
        obtain ⟨o2, u2, i2⟩ := h2.plain
        have hs0 : s < mF.core.fst.states.length := by have : (s : Int) < (mF.core.fst.states.length : Int) := hs.2; omega
        obtain ⟨m1, _, e1, _⟩ := ppm_update i1 encode cs count hs.1 hs.2
        obtain ⟨m3, _, e7, _⟩ := ppm_update i2 encode cs count hs'.1 hs'.2
        obtain ⟨y, m2, e2, e3, e4, e5⟩ := ppm_step hδ0 hδ1 h1 h2 h3 h4 h5 (op := .update s cs count) hs0 (encode := encode) (wrap_eq e1)
        obtain ⟨r', e6, rfl⟩ := Ppm.wrap_ok e2
        rw [e7] at e6
        simp only [Except.ok.injEq, Prod.mk.injEq] at e6
        simp only [ops, update, e1, e7, settle]
        refine ⟨trivial, ?_⟩
        rw [e6.2]
        exact .ppm h1 e3 e4 h4 h5 h6 h7 h8
    · have hs' : ¬ ok m' s := fun x => hs ((h.ok s).2 x)
      simp only [Hub.LMOps.guard]
      rw [if_neg (fun x => hs x.2), if_neg (fun x => hs' x.2)]
      exact ⟨rfl, h.mono (Nat.le_add_right _ _)⟩

end Mozolm.System
