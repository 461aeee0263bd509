import Verif.MatchSpec
import Verif.TwinLemmas

/-! # Operations on costs with rounding and without -/

namespace Mozolm
open XR Real

variable {φ : Prop} {ε δ e f : ℝ} {a b a' b' : XR}

theorem CostMatch.le (h : CostMatch φ e a a') (he : e ≤ f) : CostMatch φ f a a' := h.imp_right fun h => h.le he

theorem NumMatch.le (h : NumMatch φ e a a') (he : e ≤ f) : NumMatch φ f a a' := h.imp_right fun h => h.le he

theorem ScoresTwin.match {d n : ℝ} {r r' : LMScores XR} (h : ScoresTwin φ d n r r') : ScoresMatch φ d n r r' :=
  ⟨h.symbols, h.probs.mono fun _ _ h => .inr h, .inr h.norm⟩

theorem ScoresMatch.le {d n d' n' : ℝ} {r r' : LMScores XR} (h : ScoresMatch φ d n r r') (hd : d ≤ d') (hn : n ≤ n') : ScoresMatch φ d' n' r r' :=
  ⟨h.symbols, h.probs.mono fun _ _ h => h.le hd, h.norm.le hn⟩

theorem add_nan : ∀ x, XR.add x .nan = .nan := by intro x; cases x <;> rfl
theorem sub_nan : ∀ x, XR.sub x .nan = .nan := by intro x; cases x <;> rfl
theorem mul_nan : ∀ x, XR.mul x .nan = .nan := by intro x; cases x <;> rfl
theorem nan_add : ∀ x, XR.add .nan x = .nan := by intro x; cases x <;> rfl
theorem nan_sub : ∀ x, XR.sub .nan x = .nan := by intro x; cases x <;> rfl
theorem nan_mul : ∀ x, XR.mul .nan x = .nan := by intro x; cases x <;> rfl
theorem nls_nan : ∀ x, XR.negLogSum x .nan = .nan := by intro x; cases x <;> rfl

theorem CostMatch.times (F : Rounding φ ε δ) (ha : CostMatch φ e a a') (hb : CostMatch φ f b b') :
    CostMatch φ (e + f + ε) (F.times a b) (XR.add a' b') := by
  rcases ha with rfl | ha
  · exact .inl (nan_add _)
  · rcases hb with rfl | hb
    · exact .inl (add_nan _)
    · exact .inr (Ppm.CostTwin.times F ha hb)

theorem CostMatch.nls (F : Rounding φ ε δ) (ha : CostMatch φ e a a') (hb : CostMatch φ e b b') :
    CostMatch φ (e + ε) (F.nls a b) (XR.negLogSum a' b') := by
  rcases ha with rfl | ⟨p, p1, rfl, p3⟩
  · exact .inl (negLogSum_nan _)
  · rcases hb with rfl | ⟨q, q1, rfl, q3⟩
    · exact .inl (nls_nan _)
    · exact .inr ⟨p + q, add_nonneg p1 q1, negLogSum_costOf p1 q1, CostNear.nls F p3 q3⟩

theorem NumMatch.cost (F : Rounding φ ε δ) (h : NumMatch φ e a a') : CostMatch φ (e + ε) (F.cost a) (XR.negLog a') := by
  rcases h with rfl | ⟨p, p1, rfl, p3⟩
  · exact .inl rfl
  · exact .inr ⟨p, p1, negLog_fin p1, ValueNear.cost F p1 p3⟩

theorem CostMatch.prob (F : Rounding φ ε δ) (h1 : δ < 1) (h : CostMatch φ e a a') : NumMatch φ (e + slack δ) (F.prob a) (XR.expNeg a') := by
  rcases h with rfl | h
  · exact .inl rfl
  · exact .inr (Ppm.CostTwin.prob F h1 h)

theorem NumMatch.mul (F : Rounding φ ε δ) (h1 : δ < 1) (ha : NumMatch φ e a a') (hb : NumMatch φ f b b') :
    NumMatch φ (e + f + slack δ) (F.dmul a b) (XR.mul a' b') := by
  rcases ha with rfl | ⟨p, p1, rfl, p3⟩
  · exact .inl (nan_mul _)
  · rcases hb with rfl | ⟨q, q1, rfl, q3⟩
    · exact .inl (mul_nan _)
    · refine .inr ⟨p * q, mul_nonneg p1 q1, rfl, .of h1 (mul_nonneg p1 q1) (F.dmul_near a b) ?_⟩
      rcases p3 with ⟨hf, rfl⟩ | ⟨x, rfl, x1, x2⟩
      · exact .inl ⟨hf, nan_mul _⟩
      · rcases q3 with ⟨hf, rfl⟩ | ⟨y, rfl, y1, y2⟩
        · exact .inl ⟨hf, mul_nan _⟩
        · have x0 : 0 ≤ x := le_trans (by positivity) x1
          have y0 : 0 ≤ y := le_trans (by positivity) y1
          refine .inr ⟨x * y, rfl, ?_, ?_⟩
          · calc p * q * exp (-(e + f)) = (p * exp (-e)) * (q * exp (-f)) := by rw [neg_add, exp_add]; ring
              _ ≤ x * y := mul_le_mul x1 y1 (by positivity) x0
          · calc x * y ≤ (p * exp e) * (q * exp f) := mul_le_mul x2 y2 y0 (by positivity)
              _ = p * q * exp (e + f) := by rw [exp_add]; ring

theorem NumMatch.add (F : Rounding φ ε δ) (h1 : δ < 1) (ha : NumMatch φ e a a') (hb : NumMatch φ e b b') :
    NumMatch φ (e + slack δ) (F.dadd a b) (XR.add a' b') := by
  rcases ha with rfl | ⟨p, p1, rfl, p3⟩
  · exact .inl (nan_add _)
  · rcases hb with rfl | ⟨q, q1, rfl, q3⟩
    · exact .inl (add_nan _)
    · refine .inr ⟨p + q, add_nonneg p1 q1, rfl, .of h1 (add_nonneg p1 q1) (F.dadd_near a b) ?_⟩
      rcases p3 with ⟨hf, rfl⟩ | ⟨x, rfl, x1, x2⟩
      · exact .inl ⟨hf, nan_add _⟩
      · rcases q3 with ⟨hf, rfl⟩ | ⟨y, rfl, y1, y2⟩
        · exact .inl ⟨hf, add_nan _⟩
        · exact .inr ⟨x + y, rfl, by rw [add_mul]; linarith, by rw [add_mul]; linarith⟩

theorem perm_lift {α β : Type} (g : β → α) : ∀ (l : List β) {o : List α}, o.Perm (l.map g) → ∃ l1 : List β, l1.Perm l ∧ l1.map g = o
  | [], o, h => ⟨[], .nil, (List.Perm.eq_nil h).symm⟩
  | b :: l, o, h => by
    have hm : g b ∈ o := h.symm.subset (by simp)
    obtain ⟨s, t, rfl⟩ := List.append_of_mem hm
    have h2 : (s ++ t).Perm (l.map g) := by
      have h3 : (g b :: (s ++ t)).Perm (g b :: l.map g) := (List.perm_middle.symm).trans h
      exact (List.perm_cons _).1 h3
    obtain ⟨l1, h4, h5⟩ := perm_lift g l h2
    obtain ⟨u, v, rfl, rfl, rfl⟩ := List.map_eq_append_iff.1 h5
    exact ⟨u ++ b :: v, List.perm_middle.trans (h4.cons b), by simp⟩

theorem total_nan : ∀ (l : List XR) (x : XR), .nan ∈ x :: l → Scores.negLogSumFrom Arith.xr x l = .nan
  | [], x, h => by rw [← List.mem_singleton.1 h]; rfl
  | y :: l, x, h => by
    have h0 : Scores.negLogSumFrom Arith.xr x (y :: l) = Scores.negLogSumFrom Arith.xr (XR.negLogSum x y) l := rfl
    rw [h0]
    apply total_nan
    rcases List.mem_cons.1 h with h | h
    · rw [← h, negLogSum_nan]; simp
    · rcases List.mem_cons.1 h with h | h
      · rw [← h, nls_nan]; simp
      · exact List.mem_cons_of_mem _ h

/-- Corresponding costs divided by their totals, which may be added up in different orders. -/
theorem over_total (F : Rounding φ ε δ) (hε : 0 ≤ ε) {L : List (XR × XR)} (h : ∀ x ∈ L, CostMatch φ e x.1 x.2) {v v' : XR} {o o' : List XR}
    (ho : (v :: o).Perm (L.map Prod.fst)) (ho' : (v' :: o').Perm (L.map Prod.snd)) {x : XR × XR} (hx : x ∈ L) :
    CostMatch φ (2 * e + L.length * ε) (F.over x.1 (Scores.negLogSumFrom F.arith v o)) (XR.sub x.2 (Scores.negLogSumFrom Arith.xr v' o')) := by
  by_cases hnan : .nan ∈ v' :: o'
  · rw [total_nan o' v' hnan]; exact .inl (sub_nan _)
  have hT : ∀ x ∈ L, Ppm.CostTwin φ e x.1 x.2 := by
    intro y hy
    rcases h y hy with hn | h
    · exact absurd (ho'.symm.subset (List.mem_map.2 ⟨y, hy, hn⟩)) hnan
    · exact h
  choose! p p1 p2 p3 using hT
  obtain ⟨L1, q1, q2⟩ := perm_lift _ L ho
  obtain ⟨L2, r1, r2⟩ := perm_lift _ L ho'
  have hsum : (L1.map p).sum = (L.map p).sum := (q1.map p).sum_eq
  have hsum2 : (L2.map p).sum = (L.map p).sum := (r1.map p).sum_eq
  cases L1 with
  | nil => cases q2
  | cons z L1 =>
    cases L2 with
    | nil => cases r2
    | cons z2 L2 =>
      simp only [List.map_cons, List.cons.injEq] at q2 r2
      obtain ⟨rfl, rfl⟩ := q2
      obtain ⟨rfl, rfl⟩ := r2
      have hz : ∀ y ∈ z :: L1, y ∈ L := fun y hy => q1.subset hy
      have hz2 : ∀ y ∈ z2 :: L2, y ∈ L := fun y hy => r1.subset hy
      have htot : CostNear φ (e + L1.length * ε) (Scores.negLogSumFrom F.arith z.1 (L1.map Prod.fst)) (L.map p).sum := by
        have := CostNear.total F hε (L1.map fun y => (y.1, p y)) (p3 z (hz z (by simp))) (by
          intro y hy
          obtain ⟨w, hw, rfl⟩ := List.mem_map.1 hy
          exact p3 w (hz w (by simp [hw])))
        rw [List.length_map, List.map_map, List.map_map] at this
        rw [← hsum, List.map_cons, List.sum_cons]
        exact this
      have htot2 : Scores.negLogSumFrom Arith.xr z2.2 (L2.map Prod.snd) = costOf (L.map p).sum := by
        have : L2.map Prod.snd = (L2.map p).map costOf := by
          rw [List.map_map]
          exact List.map_congr_left fun y hy => p2 y (hz2 y (by simp [hy]))
        rw [this, p2 z2 (hz2 z2 (by simp)), Scores.negLogSumFrom_costOf (p1 z2 (hz2 z2 (by simp)))]
        · rw [← hsum2, List.map_cons, List.sum_cons]
        · intro q hq
          obtain ⟨y, hy, rfl⟩ := List.mem_map.1 hq
          exact p1 y (hz2 y (by simp [hy]))
      have hnn : ∀ q ∈ L.map p, 0 ≤ q := by
        intro q hq
        obtain ⟨y, hy, rfl⟩ := List.mem_map.1 hq
        exact p1 y hy
      have hle : p x ≤ (L.map p).sum := List.single_le_sum hnn _ (List.mem_map.2 ⟨x, hx, rfl⟩)
      rw [htot2]
      rcases (List.sum_nonneg hnn).eq_or_lt with h0 | h0
      · left
        have : p x = 0 := le_antisymm (by linarith) (p1 x hx)
        rw [p2 x hx, this, ← h0, costOf_zero]
        rfl
      · right
        refine ⟨p x / (L.map p).sum, div_nonneg (p1 x hx) h0.le, ?_, ?_⟩
        · rw [p2 x hx]; exact sub_costOf (p1 x hx) h0
        · refine (CostNear.over F (p3 x hx) htot h0).mono (le_of_eq ?_)
          have : L.length = L1.length + 1 := by rw [← q1.length_eq]; rfl
          rw [this]
          push_cast
          ring

end Mozolm
