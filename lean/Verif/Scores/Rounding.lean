import Verif.RoundingLemmas
import Verif.Scores.Numeric

/-! # Normalising costs with rounding -/

namespace Mozolm
open XR Real Scores

variable {φ : Prop} {ε δ : ℝ}

/-- the number a cost stands for -/
noncomputable def weightOf : XR → ℝ
  | .fin x => exp (-x)
  | _ => 0

/-- costs that stand for no number -/
def XR.Bad (c : XR) : Prop := c = .nan ∨ c = .ninf

theorem weightOf_nonneg (c : XR) : 0 ≤ weightOf c := by
  cases c <;> simp [weightOf, (exp_pos _).le]

theorem weightOf_near {c : XR} (h : ¬ c.Bad) : CostNear φ 0 c (weightOf c) := by
  cases c with
  | nan => exact absurd (.inl rfl) h
  | ninf => exact absurd (.inr rfl) h
  | pinf => exact .inr (.inl ⟨rfl, rfl⟩)
  | fin x => exact CostNear.self

theorem nls_bad (F : Rounding φ ε δ) {a b : XR} (h : a.Bad ∨ b.Bad) : (F.nls a b).Bad := by
  have hn := F.nls_near a b
  have hx : (negLogSum a b).Bad := by
    rcases h with (rfl | rfl) | (rfl | rfl)
    · cases b <;> simp [negLogSum, Bad]
    · cases b <;> simp [negLogSum, Bad]
    · cases a <;> simp [negLogSum, Bad]
    · cases a <;> simp [negLogSum, Bad]
  rcases hx with hx | hx <;> rw [hx] at hn
  · exact .inl (near_nan hn)
  · cases hr : F.nls a b with
    | nan => exact .inl rfl
    | ninf => exact .inr rfl
    | fin x => rw [hr] at hn; exact absurd hn id
    | pinf => rw [hr] at hn; exact absurd hn id

theorem total_bad (F : Rounding φ ε δ) : ∀ (l : List XR) {a : XR}, (a.Bad ∨ ∃ c ∈ l, c.Bad) →
    (negLogSumFrom F.arith a l : XR).Bad := by
  intro l
  induction l with
  | nil =>
    intro a h
    rcases h with h | ⟨c, hc, _⟩
    · exact h
    · cases hc
  | cons x l ih =>
    intro a h
    refine ih ?_
    rcases h with h | ⟨c, hc, hb⟩
    · exact .inl (nls_bad F (.inl h))
    · rcases List.mem_cons.1 hc with rfl | hc
      · exact .inl (nls_bad F (.inr hb))
      · exact .inr ⟨c, hc, hb⟩

/-- Dividing by the total: unless a flag was raised, each result is the share within `E`. -/
theorem shares_near (F : Rounding φ ε δ) (hε : 0 ≤ ε) (h1 : δ < 1) {c : XR} {cs vs : List XR} (hp : vs.Perm (c :: cs))
    (hn : ∀ v ∈ vs, F.prob (F.over v (negLogSumFrom F.arith c cs)) ≠ .nan) :
    0 < (vs.map weightOf).sum ∧ ∀ v ∈ vs, ValueNear φ (vs.length * ε + slack δ) (F.prob (F.over v (negLogSumFrom F.arith c cs)))
      (weightOf v / (vs.map weightOf).sum) := by
  have hover : ∀ v ∈ vs, F.over v (negLogSumFrom F.arith c cs) ≠ .nan := fun v hv e =>
    hn v hv (by rw [e]; exact nearD_nan (F.prob_near .nan))
  have hsub : ∀ v ∈ vs, XR.sub v (negLogSumFrom F.arith c cs) ≠ .nan := fun v hv e => by
    have := F.over_near v (negLogSumFrom F.arith c cs)
    rw [e] at this
    exact hover v hv (near_nan this)
  have hcm : c ∈ vs := hp.mem_iff.2 (by simp)
  -- no bad costs
  have hok : ∀ v ∈ vs, ¬ v.Bad := by
    intro v hv hb
    have ht : (negLogSumFrom F.arith c cs : XR).Bad := by
      refine total_bad F cs ?_
      rcases List.mem_cons.1 (hp.mem_iff.1 hv) with rfl | h
      · exact .inl hb
      · exact .inr ⟨v, h, hb⟩
    have := hsub v hv
    rcases ht with ht | ht <;> rw [ht] at this
    · exact this (by cases v <;> rfl)
    · rcases hb with rfl | rfl <;> exact this rfl
  have hsum : (vs.map weightOf).sum = weightOf c + (cs.map weightOf).sum := by
    rw [(hp.map _).sum_eq]; simp
  have htot := CostNear.total F hε (cs.map fun v => (v, weightOf v)) (weightOf_near (hok c hcm)) (by
    intro x hx
    obtain ⟨v, hv, rfl⟩ := List.mem_map.1 hx
    exact weightOf_near (hok v (hp.mem_iff.2 (by simp [hv]))))
  rw [List.map_map, List.map_map, List.length_map] at htot
  have e1 : (cs.map (Prod.fst ∘ fun v => (v, weightOf v))) = cs := List.map_id' _
  have e2 : (cs.map (Prod.snd ∘ fun v => (v, weightOf v))) = cs.map weightOf := rfl
  rw [e1, e2, ← hsum, zero_add] at htot
  have hpos : 0 < (vs.map weightOf).sum := by
    rcases htot with h | ⟨hzero, h⟩ | h
    · have := hsub c hcm
      rw [h.2] at this
      exact absurd (by cases c <;> rfl) this
    · have hall : ∀ v ∈ vs, weightOf v = 0 := by
        intro v hv
        refine le_antisymm ?_ (weightOf_nonneg v)
        rw [← hzero]
        refine List.single_le_sum ?_ _ (List.mem_map_of_mem hv)
        intro x hx
        obtain ⟨u, _, rfl⟩ := List.mem_map.1 hx
        exact weightOf_nonneg u
      have h0 := hall c hcm
      have hb := hok c hcm
      have := hsub c hcm
      rw [h] at this
      cases c with
      | nan => exact absurd (.inl rfl) hb
      | ninf => exact absurd (.inr rfl) hb
      | pinf => exact absurd rfl this
      | fin x => exact absurd h0 (exp_pos _).ne'
    · exact h.1
  refine ⟨hpos, fun v hv => ?_⟩
  have := CostNear.prob F h1 (CostNear.over F (weightOf_near (hok v hv)) htot hpos)
  convert this using 1
  rw [hp.length_eq, List.length_cons, Nat.cast_succ]
  ring

theorem near_list {E : ℝ} : ∀ (l : List (XR × ℝ)), (∀ x ∈ l, x.1 ≠ .nan ∧ 0 ≤ x.2 ∧ ValueNear φ E x.1 x.2) →
    ∃ ys : List ℝ, l.map Prod.fst = ys.map XR.fin ∧ (∀ y ∈ ys, 0 ≤ y) ∧
      (l.map Prod.snd).sum * exp (-E) ≤ ys.sum ∧ ys.sum ≤ (l.map Prod.snd).sum * exp E := by
  intro l
  induction l with
  | nil => exact fun _ => ⟨[], rfl, by simp, by simp, by simp⟩
  | cons x l ih =>
    intro h
    obtain ⟨ys, y1, y2, y3, y4⟩ := ih fun z hz => h z (by simp [hz])
    obtain ⟨a1, a2, a3⟩ := h x (by simp)
    rcases a3 with a3 | ⟨y, b1, b2, b3⟩
    · exact absurd a3.2 a1
    · refine ⟨y :: ys, by rw [List.map_cons, List.map_cons, y1, b1], ?_, ?_, ?_⟩
      · intro z hz
        rcases List.mem_cons.1 hz with rfl | hz
        · exact le_trans (by positivity) b2
        · exact y2 z hz
      · simp only [List.map_cons, List.sum_cons]; linarith
      · simp only [List.map_cons, List.sum_cons]; linarith

/-- The shares add up to one within `E`. -/
theorem shares_sum (F : Rounding φ ε δ) (hε : 0 ≤ ε) (h1 : δ < 1) {c : XR} {cs vs : List XR} (hp : vs.Perm (c :: cs))
    (hn : ∀ v ∈ vs, F.prob (F.over v (negLogSumFrom F.arith c cs)) ≠ .nan) :
    ∃ ys : List ℝ, (vs.map fun v => F.prob (F.over v (negLogSumFrom F.arith c cs))) = ys.map XR.fin ∧ (∀ y ∈ ys, 0 ≤ y) ∧
      exp (-(vs.length * ε + slack δ)) ≤ ys.sum ∧ ys.sum ≤ exp (vs.length * ε + slack δ) := by
  obtain ⟨h2, h3⟩ := shares_near F hε h1 hp hn
  obtain ⟨ys, y1, y2, y3, y4⟩ := near_list (E := vs.length * ε + slack δ)
    (vs.map fun v => (F.prob (F.over v (negLogSumFrom F.arith c cs)), weightOf v / (vs.map weightOf).sum)) (by
      intro x hx
      obtain ⟨v, hv, rfl⟩ := List.mem_map.1 hx
      exact ⟨hn v hv, div_nonneg (weightOf_nonneg v) h2.le, h3 v hv⟩)
  have hs : ((vs.map fun v => (F.prob (F.over v (negLogSumFrom F.arith c cs)), weightOf v / (vs.map weightOf).sum)).map Prod.snd).sum = 1 := by
    rw [List.map_map]
    have := sum_map_div (vs.map weightOf) (vs.map weightOf).sum
    rw [List.map_map, div_self h2.ne'] at this
    exact this
  rw [hs, one_mul] at y3 y4
  rw [List.map_map] at y1
  exact ⟨ys, y1, y2, y3, y4⟩

end Mozolm
