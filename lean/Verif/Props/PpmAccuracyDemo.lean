import Verif.Props.PpmAccuracy
import Verif.Props.PpmDemo
import Verif.Binary64

/-! # C91: a million observations; the hypotheses are met -/

namespace Mozolm.Ppm
open XR Real
open scoped BigOperators

variable {φ : Prop} {ε δ a b : ℝ}

theorem CostTwin.mono {e e' : ℝ} {c c' : XR} (h : CostTwin φ e c c') (he : e ≤ e') : CostTwin φ e' c c' := by
  obtain ⟨p, h1, h2, h3⟩ := h
  exact ⟨p, h1, h2, h3.mono he⟩

theorem NumberTwin.mono {e e' : ℝ} {c c' : XR} (h : NumberTwin φ e c c') (he : e ≤ e') : NumberTwin φ e' c c' := by
  obtain ⟨p, h1, h2, h3⟩ := h
  exact ⟨p, h1, h2, h3.mono h1.le he⟩

theorem AnswerNear.mono {F : Rounding φ ε δ} {e e' d d' n n' : ℝ} {x : Answer F.arith} {y : Answer Arith.xr} (h : AnswerNear F e d n x y)
    (he : e ≤ e') (hd : d ≤ d') (hn : n ≤ n') : AnswerNear F e' d' n' x y := by
  cases h with
  | state t => exact .state t
  | ok b => exact .ok b
  | scores h1 h2 h3 => exact .scores h1 (h2.mono fun _ _ h => h.mono hd) (h3.mono hn)
  | cost h => exact .cost (h.mono he)
  | costs h => exact .costs (h.mono fun _ _ h => h.mono he)
  | none => exact .none

theorem exp_le_inv {x : ℝ} (h1 : x < 1) : exp x ≤ (1 - x)⁻¹ := by
  have h := Real.add_one_le_exp (-x)
  rw [Real.exp_neg] at h
  have := inv_anti₀ (by linarith : (0 : ℝ) < -x + 1) h
  rw [inv_inv] at this
  calc exp x ≤ (-x + 1)⁻¹ := this
    _ = (1 - x)⁻¹ := by ring_nf

theorem slack_le {δ : ℝ} (h0 : 0 ≤ δ) (h1 : δ ≤ 1 / 2) : slack δ ≤ 2 * δ := by
  have hp : 0 < 1 - δ := by linarith
  have h := Real.one_sub_inv_le_log_of_pos hp
  unfold slack
  have : (1 - δ)⁻¹ ≤ 1 + 2 * δ := by
    rw [inv_le_comm₀ hp (by linarith), inv_eq_one_div, div_le_iff₀ (by linarith)]
    nlinarith
  linarith

/-- the maximum order of a model read from a vocabulary -/
theorem vocab_maxOrder {A : Arith} {o : Options A.D} {ls : List (List Str)} {m : Model A} {V : Nat} (hm : read A o .none (some (some ls)) = pure m)
    (hf : m.core.fst = freshFst A V) : m.core.maxOrder = if (1 : Int) ≥ (initParameters A o).maxOrder then 2 else (initParameters A o).maxOrder := by
  unfold read at hm
  obtain ⟨r, _, hm⟩ := Res.bind_eq.mp hm
  obtain ⟨r2, _, hm⟩ := Res.bind_eq.mp hm
  obtain ⟨c, h3, hm⟩ := Res.bind_eq.mp hm
  have hmc := congrArg Model.core (Res.pure_inj hm)
  simp only at hmc
  subst hmc
  have hr : r2.1 = freshFst A V := by
    rw [← hf]
    unfold calculateStateOrders at h3
    simp only at h3
    split at h3
    · cases h3
    · obtain ⟨w, _, h3⟩ := Res.bind_eq.mp h3
      split at h3
      · cases h3
      · obtain ⟨q, _, h3⟩ := Res.bind_eq.mp h3
        rw [← Res.pure_inj h3]
  rw [hr] at h3
  have h4 : calculateStateOrders A (freshFst A V) (initParameters A o).maxOrder (!(initParameters A o).static) = pure
      { fst := freshFst A V, orders := if !(initParameters A o).static then [1, 0] else [],
        maxOrder := if (1 : Int) ≥ (initParameters A o).maxOrder then 1 + 1 else (initParameters A o).maxOrder } := rfl
  have h5 : m.core = _ := Res.pure_inj (h3.symm.trans h4)
  rw [h5]
  rfl

/-- distinct symbols of a vocabulary -/
theorem Extended.few {t : SymbolTable} {V : Nat} {cs : List Str} (h : Extended epsilonTable t 0 V cs) : V ≤ cs.length := by
  obtain ⟨l, hl⟩ := h.kept
  have hlen : t.length = V + 1 := by
    have := congrArg List.length h.dense.labels
    simpa using this
  have hn := h.dense.nodup
  rw [hl, List.map_append] at hn
  have hd := List.nodup_append.1 hn
  have hsub : ∀ c ∈ l.map Prod.snd, c ∈ cs := by
    intro c hc
    rcases (h.symbols c).1 (by rw [hl, List.map_append]; exact List.mem_append_right _ hc) with h1 | h1
    · exact absurd rfl (hd.2.2 c h1 c hc)
    · exact h1
  have := (List.subperm_of_subset hd.2.1 hsub).length_le
  rw [hl, List.length_append] at hlen
  simp only [epsilonTable, List.length_cons, List.length_nil, List.length_map] at hlen this
  omega

/-- the error after a million observations -/
theorem million_error (hε0 : 0 ≤ ε) (hε : ε ≤ 1 / 8000000000000) (hδ0 : 0 ≤ δ) (hδ : δ ≤ 1 / 8000000000000000) {V n : Nat} (hV : V ≤ 1000) (hn : n ≤ 9) {T : ℝ}
    (hT : T ≤ 1001001) (hT0 : 0 ≤ T) : scoreError ε δ T (7 / 2) V n + slack δ ≤ 1 / 50000 ∧ (T + V + 1) * ε + slack δ ≤ 1 / 50000 := by
  have hs := slack_le hδ0 (by linarith)
  have hs0 := slack_nonneg hδ0 (by linarith)
  have hV' : (V : ℝ) ≤ 1000 := by exact_mod_cast hV
  have hV0 : (0 : ℝ) ≤ V := Nat.cast_nonneg V
  have hn' : (n : ℝ) ≤ 9 := by exact_mod_cast hn
  have hn0 : (0 : ℝ) ≤ n := Nat.cast_nonneg n
  have hTe : T * ε ≤ 1001001 * (1 / 8000000000000) := mul_le_mul hT hε hε0 (by norm_num)
  have hVe : V * ε ≤ 1000 * (1 / 8000000000000) := mul_le_mul hV' hε hε0 (by norm_num)
  have hTe0 : 0 ≤ T * ε := by positivity
  have hVe0 : 0 ≤ V * ε := by positivity
  have hstep : stepError ε δ T (7 / 2) V ≤ 1 / 700000 := by
    unfold stepError
    nlinarith
  have hstep0 : 0 ≤ stepError ε δ T (7 / 2) V := by
    unfold stepError; positivity
  have : n * stepError ε δ T (7 / 2) V ≤ 9 * (1 / 700000) := mul_le_mul hn' hstep hstep0 (by norm_num)
  constructor
  · unfold scoreError
    nlinarith
  · nlinarith

/-- **C91** In numbers: a model read from a vocabulary of up to a thousand characters, of order up to ten, with `beta` up to 3/4, in arithmetic as
precise as binary64 with costs below 2^10. Through any calls with up to a million observations every cost and the logarithm of every probability
and normalization is within 1/50000 of what it is without rounding. -/
theorem C91_million (F : Rounding φ ε δ) (hε : 0 ≤ ε) (hε1 : ε ≤ 2 ^ (-43 : Int)) (hδ0 : 0 ≤ δ) (hδ1 : δ ≤ 2 ^ (-53 : Int))
    {o : Options XR} (hao : o.alpha = .fin a) (hbo : o.beta = .fin b) (ha : 0 < a) (ha1 : a < 1 - δ) (hb : 0 < b) (hb1 : b ≤ 3 / 4)
    (ho : 0 < o.maxOrder ∧ o.maxOrder ≤ 10) {ls : List (List Str)} (hls : ∃ c ∈ ls.flatten, c ∉ epsilonTable.map Prod.snd)
    (hlen : ls.flatten.length ≤ 1000) :
    ∃ (mF : Model F.arith) (m : Model Arith.xr), read F.arith o .none (some (some ls)) = pure mF ∧
      read Arith.xr o .none (some (some ls)) = pure m ∧ mF.symbols = m.symbols ∧
      ∀ (encode : Int → Str) (tr : List (Op × Answer F.arith)) (mF' : Model F.arith), Run encode mF tr mF' →
        observations (tr.map Prod.fst) ≤ 1000000 →
      ∃ (tr' : List (Op × Answer Arith.xr)) (m' : Model Arith.xr), Run encode m tr' m' ∧ tr'.map Prod.fst = tr.map Prod.fst ∧
        Pointwise (fun x y => AnswerNear F (1 / 50000) (1 / 50000) (1 / 50000) x.2 y.2) tr tr' := by
  have e1 : (2 : ℝ) ^ (-43 : Int) ≤ 1 / 8000000000000 := by norm_num
  have e2 : (2 : ℝ) ^ (-53 : Int) ≤ 1 / 8000000000000000 := by norm_num
  replace hε1 := hε1.trans e1
  replace hδ1 := hδ1.trans e2
  clear e1 e2
  have hx : exp (2 * ε) ≤ 4 / 3 * (99 / 100) := by
    refine (exp_le_inv (by linarith)).trans ?_
    rw [inv_le_comm₀ (by linarith) (by norm_num)]
    norm_num
    linarith
  have hb2 : b * exp (2 * ε) < 1 := by
    have := exp_pos (2 * ε)
    nlinarith
  obtain ⟨p1, p2, p3, p4⟩ := C91_parameters F hδ0 hao hbo ha ha1 hb (by linarith)
  obtain ⟨mF, m, r1, r2, r3, r4⟩ := C91_accuracy F hε hδ0 (by linarith) ha hb hb2 p1 p2 p3 p4 (Given.vocabulary (F := F) (hε := hε) (hb := hb) (hb1 := hb2) hls)
  have L : CountLaws Arith.xr OkR (initParameters Arith.xr o).beta := by rw [p4]; exact laws hb (by linarith)
  obtain ⟨m0, ord, V, k1, k2, k3, _, _, k4, _, _, _⟩ := read_vocab_ok (A := Arith.xr) (Ok := OkR) L hls
  have hm : m = m0 := Res.pure_inj (r2.symm.trans k1)
  subst hm
  have hV : m.chars = V := k3.dense.chars
  have hV1000 : V ≤ 1000 := k3.few.trans hlen
  have hmo : (m.core.maxOrder - 1).toNat ≤ 9 := by
    have hi : (initParameters Arith.xr o).maxOrder = o.maxOrder := by
      show (if o.maxOrder > 0 then o.maxOrder else 4) = o.maxOrder
      rw [if_pos ho.1]
    rw [vocab_maxOrder r2 k4, hi]
    split <;> omega
  refine ⟨mF, m, r1, r2, r3, fun encode tr mF' hr hobs => ?_⟩
  obtain ⟨tr', m', j1, j2, j3⟩ := r4 encode tr mF' hr
  refine ⟨tr', m', j1, j2, ?_⟩
  have hVr : (V : ℝ) ≤ 1000 := by exact_mod_cast hV1000
  have hor : ((observations (tr.map Prod.fst) : Nat) : ℝ) ≤ 1000000 := by exact_mod_cast hobs
  have hT : (1001001 + 1) * ε ≤ 1 / 1000000 := by nlinarith
  have hK : b * exp ((1001001 + 1) * ε) * (7 / 2 + 1) ≤ 7 / 2 := by
    have h1 : exp ((1001001 + 1) * ε) ≤ 1001 / 1000 := by
      refine (exp_le_inv (by linarith)).trans ?_
      rw [inv_le_comm₀ (by linarith) (by norm_num)]
      norm_num
      linarith
    have h2 : b * exp ((1001001 + 1) * ε) ≤ 3 / 4 * (1001 / 1000) := mul_le_mul hb1 h1 (exp_pos _).le (by norm_num)
    linarith
  have := j3 1001001 (7 / 2) (fun s hs => ?_) (by norm_num) hK
  · obtain ⟨q1, q2⟩ := million_error hε hε1 hδ0 hδ1 (V := m.chars) (by omega) hmo (T := 1001001) le_rfl (by norm_num)
    have hs0 := slack_nonneg hδ0 (by linarith : δ < 1)
    exact this.mono fun x y h => h.mono (by linarith) q1 q2
  · rw [hV, k4]
    have := fresh_within V s (by rw [← k4]; exact hs)
    linarith

/-- C91_million in binary64 arithmetic with costs below `2 ^ 10`, and C91_accuracy from a vocabulary. There is a history that learns, then asks. -/
example : ∃ (mF mF' : Model (binary64 10).arith) (tr : List (Op × Answer (binary64 10).arith)) (tr' : List (Op × Answer Arith.xr)),
    read (binary64 10).arith ⟨3, .fin (1 / 4), .fin (3 / 4), false, 0, false⟩ .none (some (some Demo.vocab)) = pure mF ∧ Run Demo.enc mF tr mF' ∧
    tr.map Prod.fst = [.update 0 [97, 98] 3, .scores 0, .score 0 98, .logProbs [1, 2]] ∧
    Pointwise (fun x y => AnswerNear (binary64 10) (1 / 50000) (1 / 50000) (1 / 50000) x.2 y.2) tr tr' := by
  have hε : (0 : ℝ) ≤ 2 ^ ((10 : Int) - 53) := by positivity
  have hδ : (0 : ℝ) ≤ 2 ^ (-53 : Int) := by positivity
  have hx : exp (2 * (2 : ℝ) ^ ((10 : Int) - 53)) ≤ 4 / 3 * (99 / 100) := by
    refine (exp_le_inv (by norm_num)).trans ?_
    norm_num
  have hb2 : (3 / 4 : ℝ) * exp (2 * (2 : ℝ) ^ ((10 : Int) - 53)) < 1 := by linarith
  obtain ⟨mF, m, r1, r2, _, r4⟩ := C91_million (binary64 10) (a := 1 / 4) (b := 3 / 4) hε (by norm_num) hδ le_rfl
    (o := ⟨3, .fin (1 / 4), .fin (3 / 4), false, 0, false⟩) rfl rfl (by norm_num) (by norm_num) (by norm_num) (by norm_num) (by decide) Demo.vocab_ok
    (by decide)
  have L : CountLaws (binary64 10).arith (OkF (2 ^ ((10 : Int) - 53)))
      (initParameters (binary64 10).arith ⟨3, .fin (1 / 4), .fin (3 / 4), false, 0, false⟩).beta := by
    rw [(C91_parameters (binary64 10) hδ (a := 1 / 4) (b := 3 / 4) (o := ⟨3, .fin (1 / 4), .fin (3 / 4), false, 0, false⟩) rfl rfl (by norm_num)
      (by norm_num) (by norm_num) (by norm_num)).2.1]
    exact lawsF _ hε (by norm_num) hb2
  obtain ⟨m0, ord, V, k1, k2, _⟩ := read_vocab_ok (A := (binary64 10).arith) (Ok := OkF (2 ^ ((10 : Int) - 53))) L Demo.vocab_ok
  have hm : mF = m0 := Res.pure_inj (r1.symm.trans k1)
  subst hm
  have h0 : ∀ {n : Model (binary64 10).arith} {ord : Nat → Nat}, Inv (binary64 10).arith (OkF (2 ^ ((10 : Int) - 53))) n ord V 1 →
      0 < n.core.fst.states.length := fun i => lt_of_le_of_lt (Nat.zero_le _) i.wf.u_lt
  obtain ⟨a1, m1, o1, _, s1, i1, _⟩ := step_inv k2 Demo.enc (op := .update 0 [97, 98] 3) (h0 k2)
  obtain ⟨a2, m2, o2, _, s2, i2, _⟩ := step_inv i1 Demo.enc (op := .scores 0) (h0 i1)
  obtain ⟨a3, m3, o3, _, s3, i3, _⟩ := step_inv i2 Demo.enc (op := .score 0 98) (h0 i2)
  obtain ⟨a4, m4, o4, _, s4, i4, _⟩ := step_inv i3 Demo.enc (op := .logProbs [1, 2]) trivial
  have hr : Run Demo.enc mF [(.update 0 [97, 98] 3, a1), (.scores 0, a2), (.score 0 98, a3), (.logProbs [1, 2], a4)] m4 :=
    .cons (op := .update 0 [97, 98] 3) (h0 k2) s1 (.cons (op := .scores 0) (h0 i1) s2 (.cons (op := .score 0 98) (h0 i2) s3
      (.cons (op := .logProbs [1, 2]) trivial s4 .nil)))
  obtain ⟨tr', m', _, _, j⟩ := r4 Demo.enc _ _ hr (by simp [observations, Op.amount])
  exact ⟨mF, m4, _, tr', r1, hr, rfl, j⟩

theorem half_ok : (1 / 2 : ℝ) * exp (2 * (1 / 100)) < 1 := by
  have := exp_le_inv (x := 2 * (1 / 100)) (by norm_num)
  norm_num at this ⊢
  linarith

/-- C91_accuracy from a file, C91_file: the counts of `Demo` with a further character. -/
example (F : Rounding True (1 / 100) (1 / 100)) :
    Given F (by norm_num) (by norm_num) half_ok (.fstFile (some (Demo.counts, Demo.table))) (.fstFile (some (Demo.counts, Demo.table))) (some [[[99]]]) :=
  .file Demo.counts_wf Demo.counts_totals Demo.table_dense (C91_file Demo.counts_wf Demo.counts_totals) (by simp)

end Mozolm.Ppm
