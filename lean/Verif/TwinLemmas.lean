import Verif.TwinSpec
import Verif.RoundingLemmas
import Verif.Hub.Model
import Verif.Scores.Numeric

/-! # Arithmetic with rounding beside exact arithmetic -/

namespace Mozolm
open XR Real

variable {φ : Prop} {ε δ e f : ℝ} {a b a' b' : XR}

theorem Both.bind {α β γ κ : Type} {Q : α → β → Prop} {P : γ → κ → Prop} {x : Except Fault α} {y : Except Fault β} (h : Both Q x y)
    {k : α → Except Fault γ} {l : β → Except Fault κ} (hk : ∀ a b, Q a b → Both P (k a) (l b)) : Both P (x >>= k) (y >>= l) := by
  cases h with
  | ok h => exact hk _ _ h
  | error f => exact .error f

theorem Both.mono {α β : Type} {Q P : α → β → Prop} {x : Except Fault α} {y : Except Fault β} (h : Both Q x y)
    (hq : ∀ a b, Q a b → P a b) : Both P x y := by
  cases h with
  | ok h => exact .ok (hq _ _ h)
  | error f => exact .error f

theorem Both.of_ok {α β : Type} {Q : α → β → Prop} {x : Except Fault α} {y : Except Fault β} (h : Both Q x y) {a : α} (hx : x = .ok a) :
    ∃ b, y = .ok b ∧ Q a b := by
  subst hx
  cases h with
  | ok h => exact ⟨_, rfl, h⟩

theorem Both.of_ok' {α β : Type} {Q : α → β → Prop} {x : Except Fault α} {y : Except Fault β} (h : Both Q x y) {b : β} (hy : y = .ok b) :
    ∃ a, x = .ok a ∧ Q a b := by
  subst hy
  cases h with
  | ok h => exact ⟨_, rfl, h⟩

namespace Ppm

theorem CostTwin.le (h : CostTwin φ e a a') (he : e ≤ f) : CostTwin φ f a a' := by
  obtain ⟨p, h1, h2, h3⟩ := h
  exact ⟨p, h1, h2, h3.mono he⟩

theorem CostTwin.zero (he : 0 ≤ e) : CostTwin φ e (.fin 0) (.fin 0) :=
  ⟨1, zero_le_one, costOf_one.symm, .inr (.inr ⟨one_pos, 0, rfl, by simpa using he⟩)⟩

theorem CostTwin.inf : CostTwin φ e .pinf .pinf := ⟨0, le_rfl, costOf_zero.symm, .inr (.inl ⟨rfl, rfl⟩)⟩

theorem CostTwin.times (F : Rounding φ ε δ) (ha : CostTwin φ e a a') (hb : CostTwin φ f b b') :
    CostTwin φ (e + f + ε) (F.times a b) (XR.add a' b') := by
  obtain ⟨p, p1, p2, p3⟩ := ha
  obtain ⟨q, q1, q2, q3⟩ := hb
  exact ⟨p * q, mul_nonneg p1 q1, by rw [p2, q2]; exact add_costOf p1 q1, CostNear.times F p3 q3⟩

/-- a stored cost stands for itself -/
theorem CostTwin.self (h : ∃ p, 0 ≤ p ∧ a = costOf p) : CostTwin φ 0 a a := by
  obtain ⟨p, p1, rfl⟩ := h
  refine ⟨p, p1, rfl, ?_⟩
  rcases p1.eq_or_lt with h | h
  · subst h; exact .inr (.inl ⟨rfl, costOf_zero⟩)
  · rw [costOf_pos h]; exact .inr (.inr ⟨h, _, rfl, by simp⟩)

/-- corresponding costs come from a list of numbers -/
theorem costTwin_numbers {l l' : List XR} (h : Pointwise (CostTwin φ e) l l') : ∃ ps : List ℝ, l' = ps.map costOf ∧ (∀ p ∈ ps, 0 ≤ p) ∧
    Pointwise (fun c p => CostNear φ e c p) l ps := by
  induction h with
  | nil => exact ⟨[], rfl, by simp, .nil⟩
  | cons h _ ih =>
    obtain ⟨ps, h1, h2, h3⟩ := ih
    obtain ⟨p, p1, p2, p3⟩ := h
    refine ⟨p :: ps, by rw [h1, p2]; rfl, ?_, .cons p3 h3⟩
    intro q hq
    rcases List.mem_cons.1 hq with rfl | hq
    · exact p1
    · exact h2 q hq

theorem CostTwin.prob (F : Rounding φ ε δ) (h1 : δ < 1) (h : CostTwin φ e a a') : NumTwin φ (e + slack δ) (F.prob a) (Arith.xr.prob a') := by
  obtain ⟨p, p1, p2, p3⟩ := h
  exact ⟨p, p1, by rw [p2]; exact expNeg_costOf p1, CostNear.prob F h1 p3⟩

end Ppm

theorem NumTwin.le (h : NumTwin φ e a a') (he : e ≤ f) : NumTwin φ f a a' := by
  obtain ⟨p, h1, h2, h3⟩ := h
  exact ⟨p, h1, h2, h3.mono h1 he⟩

theorem ScoresTwin.le {d n d' n' : ℝ} {r r' : LMScores XR} (h : ScoresTwin φ d n r r') (hd : d ≤ d') (hn : n ≤ n') : ScoresTwin φ d' n' r r' :=
  ⟨h.symbols, h.probs.mono fun _ _ h => h.le hd, h.norm.le hn⟩

/-- costs divided by their total -/
theorem softmax_twin (F : Rounding φ ε δ) (hε : 0 ≤ ε) {l l' : List XR} (h : Pointwise (Ppm.CostTwin φ e) l l') (hf : ∃ x, XR.fin x ∈ l') :
    ∃ v v' : List XR, Scores.softmaxRenormalize F.arith l = .ok v ∧ Scores.softmaxRenormalize Arith.xr l' = .ok v' ∧
      Pointwise (Ppm.CostTwin φ (2 * e + l.length * ε)) v v' := by
  obtain ⟨ps, h1, h2, h3⟩ := Ppm.costTwin_numbers h
  have hpos : 0 < ps.sum := by
    obtain ⟨x, hx⟩ := hf
    rw [h1] at hx
    obtain ⟨p, hp, hpx⟩ := List.mem_map.1 hx
    have hp0 : 0 < p := by
      rcases (h2 p hp).eq_or_lt with h | h
      · rw [← h, costOf_zero] at hpx; cases hpx
      · exact h
    exact hp0.trans_le (List.single_le_sum h2 p hp)
  have hxr := Scores.softmax_costOf h2 hpos
  rw [h1]
  cases h3 with
  | nil => simp at hpos
  | @cons c p l ps hc hl =>
    refine ⟨_, _, rfl, hxr, ?_⟩
    have hlen := hl.length_eq
    have htot : CostNear φ (e + l.length * ε) (Scores.negLogSumFrom F.arith c l) (p + ps.sum) := by
      have := CostNear.total F hε (l.zip ps) hc (by
        clear hxr hpos h2 h1 h hlen
        induction hl with
        | nil => simp
        | cons r _ ih =>
          intro x hx
          rcases List.mem_cons.1 (by simpa using hx) with rfl | hx
          · exact r
          · exact ih x hx)
      rw [List.map_fst_zip (by omega), List.map_snd_zip (by omega), List.length_zip, hlen, min_self] at this
      rw [hlen]
      exact this
    have key : ∀ (xs : List XR) (qs : List ℝ), Pointwise (fun c p => CostNear φ e c p) xs qs → (∀ q ∈ qs, 0 ≤ q) →
        Pointwise (Ppm.CostTwin φ (2 * e + ((c :: l).length : ℝ) * ε))
          (xs.map fun x => F.over x (Scores.negLogSumFrom F.arith c l)) (qs.map fun q => costOf (q / (p :: ps).sum)) := by
      intro xs qs hx
      induction hx with
      | nil => intro _; exact .nil
      | @cons x q xs qs hxq _ ih =>
        intro hq
        refine .cons ?_ (ih fun q hq' => hq q (by simp [hq']))
        refine ⟨q / (p :: ps).sum, div_nonneg (hq q (by simp)) hpos.le, rfl, ?_⟩
        rw [List.sum_cons]
        refine (CostNear.over F hxq htot (by simpa using hpos)).mono (le_of_eq ?_)
        rw [List.length_cons, Nat.cast_succ]
        ring
    exact key (c :: l) (p :: ps) (.cons hc hl) h2

end Mozolm
