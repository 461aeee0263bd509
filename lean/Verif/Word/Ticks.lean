import Mathlib.Data.Nat.Find
import Verif.Props.WordEvict

/-! # How far a call moves the access counter of the word model's cache -/

namespace Mozolm.Word

variable {A : Arith} {M : Static A.C} {c : Cache A.C}

/-- No chain of backoff transitions is longer than `D`. -/
def Depth (f : Fst A.C) (D : Nat) : Prop := ∀ s ws t, NGram.Walk f s ws t → ws.length ≤ D

theorem Depth.rank {f : Fst A.C} {D : Nat} (h : Depth f D) :
    ∃ rank : Nat → Nat, (∀ s w t, NGram.IsBackoff f s w t → rank t < rank s) ∧ ∀ s, rank s ≤ D := by
  classical
  refine ⟨fun s => Nat.findGreatest (fun k => ∃ ws t, NGram.Walk f s ws t ∧ ws.length = k) D, ?_, fun s => Nat.findGreatest_le _⟩
  intro s w t hb
  have h0 : ∃ ws u, NGram.Walk f t ws u ∧ ws.length = Nat.findGreatest (fun k => ∃ ws u, NGram.Walk f t ws u ∧ ws.length = k) D :=
    Nat.findGreatest_spec (P := fun k => ∃ ws u, NGram.Walk f t ws u ∧ ws.length = k) (Nat.zero_le D)
      ⟨[], t, .here t, rfl⟩
  obtain ⟨ws, u, h1, h2⟩ := h0
  have h3 := NGram.Walk.step hb h1
  have h4 := h _ _ _ h3
  have h5 := Nat.le_findGreatest (P := fun k => ∃ ws t, NGram.Walk f s ws t ∧ ws.length = k) h4 ⟨_, _, h3, rfl⟩
  simp only [List.length_cons] at h5
  show Nat.findGreatest _ D < Nat.findGreatest _ D
  omega

theorem Depth.enough {f : Fst A.C} {D : Nat} (h : Depth f D) {fuel : Nat} (hf : D + 2 ≤ fuel) : Enough f fuel := by
  obtain ⟨rank, h1, h2⟩ := h.rank
  exact ⟨rank, h1, fun s _ => by have := h2 s; omega⟩

/-- Every automaton with acyclic backoff has a depth. -/
theorem depth_of_acyclic {f : Fst A.C} (hc : NGram.Closed f) (ha : NGram.Acyclic f) : ∃ D, Depth f D := by
  obtain ⟨rank, hr⟩ := ha
  obtain ⟨b, hb⟩ := exists_bound rank f.states.length
  have key : ∀ s ws t, NGram.Walk f s ws t → ws.length ≤ rank s := by
    intro s ws t h
    induction h with
    | here => exact Nat.zero_le _
    | step h1 _ ih =>
      have := hr _ _ _ h1
      simp only [List.length_cons]
      omega
  refine ⟨b, fun s ws t h => ?_⟩
  cases h with
  | here => exact Nat.zero_le _
  | step h1 h2 =>
    have hs : s < f.states.length := by
      obtain ⟨st, _, _, h, _⟩ := h1
      exact lt_of_getElem?_eq_some h
    exact Nat.le_trans (key _ _ _ (.step h1 h2)) (hb s hs)

theorem getNewCacheIndex_ticks {C : Type} {mx s : Int} {w : List C} {c c' : Cache C} {b : Bool}
    (hn : getNewCacheIndex mx s w c = .ok (b, c')) : c.accessed ≤ c'.accessed ∧ c'.accessed ≤ c.accessed + 1 := by
  simp only [getNewCacheIndex] at hn
  split at hn
  · obtain ⟨i, -, hn⟩ := bind_ok.1 hn
    cases hn
    exact ⟨by simp only; omega, by simp only; omega⟩
  · split at hn
    · cases hn
    · obtain ⟨old, -, hn⟩ := bind_ok.1 hn
      obtain ⟨i, -, hn⟩ := bind_ok.1 hn
      split at hn
      · cases hn; omega
      · obtain ⟨_, -, hn⟩ := bind_ok.1 hn
        obtain ⟨_, -, hn⟩ := bind_ok.1 hn
        cases hn
        exact ⟨by simp only; omega, by simp only; omega⟩

theorem touch_ticks {C : Type} {s : Int} {c c' : Cache C} (hn : touch s c = .ok c') : c'.accessed = c.accessed + 1 := by
  simp only [touch] at hn
  obtain ⟨i, -, hn⟩ := bind_ok.1 hn
  obtain ⟨e, -, hn⟩ := bind_ok.1 hn
  obtain ⟨es, -, hn⟩ := bind_ok.1 hn
  cases hn
  rfl

/-- `FillWeightVector` uses the cache at most twice per backoff transition. -/
theorem fillWeights_ticks (hM : Sound M) (hmax : 1 ≤ M.maxCache) {rank : Nat → Nat}
    (hr : ∀ s w t, NGram.IsBackoff M.base.fst s w t → rank t < rank s) :
    ∀ (n s : Nat) (c : Cache A.C) {v c'}, rank s < n → s < M.base.fst.states.length → CacheInv M c →
    fillWeights A M n s c = .ok (v, c') → c.accessed ≤ c'.accessed ∧ c'.accessed ≤ c.accessed + 2 * rank s := by
  intro n
  induction n with
  | zero => intro s c v c' h; omega
  | succ n ih =>
    intro s c v c' hrank hs hc h
    simp only [fillWeights] at h
    obtain ⟨i, hi, h⟩ := bind_ok.1 h
    split at h
    · obtain ⟨e, -, h⟩ := bind_ok.1 h
      cases h; omega
    · split at h
      · cases h
      · obtain ⟨wh, -, h⟩ := bind_ok.1 h
        obtain ⟨bo, hbo, h⟩ := bind_ok.1 h
        obtain ⟨b, hb, h⟩ := bind_ok.1 h
        obtain ⟨v', -, h⟩ := bind_ok.1 h
        cases h
        simp only [backoffVector] at hb
        rcases NGram.getBackoff_spec M.base.fst hs with ⟨w, t, hbt, e⟩ | ⟨-, e⟩
        · rw [e] at hbo
          cases hbo
          have htr := hr s w t hbt
          have ht := hbt.lt hM.closed
          rw [if_neg (by simp only; omega)] at hb
          obtain ⟨r, hr1, hb⟩ := bind_ok.1 hb
          obtain ⟨r1, c1⟩ := r
          -- the backoff state in the cache
          have hens : CacheInv M c1 ∧ (∃ k : Nat, c1.index[t]? = some (k : Int)) ∧ r1 = true ∧
              c.accessed ≤ c1.accessed ∧ c1.accessed ≤ c.accessed + 2 * rank t + 1 := by
            simp only [ensureWith] at hr1
            rcases hc.index_cases ht with ⟨g1, g2⟩ | ⟨k, e, g1, g2, g3, g4, g5, g6⟩
            · rw [g1] at hr1
              simp only [ok_bind, if_neg (show ¬ ((-1 : Int) ≥ 0) by omega)] at hr1
              obtain ⟨v, c2, b1, b2, b3, b4, _⟩ := fillWeights_ok hM hmax hr n t c (by omega) ht hc
              have hb := ih t c (by omega) ht hc b1
              obtain ⟨c3, k, d1, d2, d3, d4⟩ := getNewCacheIndex_ok hmax b3 ht (b4 t (Nat.le_refl _) g2) b2
              rw [b1, ok_bind] at hr1
              have hd := getNewCacheIndex_ticks d1
              simp only at hr1
              rw [d1] at hr1
              cases hr1
              exact ⟨d2, ⟨k, d3⟩, rfl, by omega, by omega⟩
            · rw [g1] at hr1
              simp only [ok_bind, if_pos (show ((k : Int) ≥ 0) by omega)] at hr1
              cases hr1
              exact ⟨hc, ⟨k, g2⟩, rfl, by omega, by omega⟩
          obtain ⟨e1, ⟨k, e2⟩, rfl, e4, e5⟩ := hens
          simp only [if_true] at hb
          obtain ⟨x, hx, hb⟩ := bind_ok.1 hb
          obtain ⟨c3, hc3, hb⟩ := bind_ok.1 hb
          cases hb
          obtain ⟨v2, c2, b1, b2, b3, b4, b5⟩ := fillWeights_ok hM hmax hr n t c1 (by omega) ht e1
          rw [b1] at hx
          cases hx
          have := b5 k e2
          subst this
          have := touch_ticks hc3
          simp only at this ⊢
          omega
        · rw [e] at hbo
          cases hbo
          rw [if_pos rfl] at hb
          cases hb
          simp only
          omega

/-- `EnsureCacheIndex`. -/
theorem ensure_ticks (hM : Sound M) (hmax : 1 ≤ M.maxCache) {D fuel : Nat} (hd : Depth M.base.fst D) (hf : D + 2 ≤ fuel)
    {s : Nat} (hs : s < M.base.fst.states.length) (hc : CacheInv M c) {b : Bool} {c' : Cache A.C}
    (h : ensureCacheIndex A M fuel s c = .ok (b, c')) : c.accessed ≤ c'.accessed ∧ c'.accessed ≤ c.accessed + (2 * D + 1) := by
  obtain ⟨rank, hr, hle⟩ := hd.rank
  simp only [ensureCacheIndex, ensureWith] at h
  obtain ⟨i, -, h⟩ := bind_ok.1 h
  split at h
  · cases h; omega
  · obtain ⟨r, h1, h⟩ := bind_ok.1 h
    obtain ⟨r1, r2⟩ := r
    have hh := hle s
    have := fillWeights_ticks hM hmax hr fuel s c (by omega) hs hc h1
    have := getNewCacheIndex_ticks h
    simp only at this
    omega

/-- `ExtractLMScores`: at most `2 D + 2`; at least one if there is anything to answer. -/
theorem extract_ticks (hM : Sound M) (hmax : 1 ≤ M.maxCache) {D fuel : Nat} (hd : Depth M.base.fst D) (hf : D + 2 ≤ fuel)
    (hc : CacheInv M c) {I : Implicit} {s : Int}
    (hq : ∀ x, info I (NGram.checkCurrentState M.base s) = .ok (some x) → 1 ≤ x.beginIndex →
      0 ≤ x.modelState ∧ x.modelState < M.base.fst.states.length)
    {resp resp' : LMScores A.D} {b : Bool} {c' : Cache A.C}
    (h : extractLMScores A fuel ⟨M, I, c⟩ s resp = .ok (b, resp', c')) :
    c.accessed ≤ c'.accessed ∧ c'.accessed ≤ c.accessed + (2 * D + 2) ∧
    (b = true → resp'.probs.length ≠ resp.probs.length → c.accessed + 1 ≤ c'.accessed) := by
  simp only [extractLMScores] at h
  obtain ⟨ce, hce, h⟩ := bind_ok.1 h
  cases hends : ce.2 with
  | nil => rw [hends] at h; cases h; exact ⟨by omega, by omega, fun _ h => absurd rfl h⟩
  | cons e0 es =>
    rw [hends] at h
    simp only at h
    obtain ⟨x, hx, h⟩ := bind_ok.1 h
    cases x with
    | none => cases h; exact ⟨by omega, by omega, fun h => by cases h⟩
    | some x =>
      simp only [scoresAt] at h
      split at h
      · cases h; exact ⟨by omega, by omega, fun h => by cases h⟩
      · rename_i hb
        obtain ⟨q1, q2⟩ := hq x hx (by omega)
        obtain ⟨q, hqq⟩ := Int.eq_ofNat_of_zero_le q1
        rw [hqq] at h q2
        obtain ⟨r, hr, h⟩ := bind_ok.1 h
        obtain ⟨r1, c1⟩ := r
        obtain ⟨c1', k, g1, g2, g3⟩ := ensureCacheIndex_ok hM hmax (hd.enough hf) (s := q) (by omega) hc
        rw [g1] at hr
        cases hr
        have ht := ensure_ticks hM hmax hd hf (s := q) (by omega) hc g1
        simp only [if_true] at h
        obtain ⟨c2, hc2, h⟩ := bind_ok.1 h
        obtain ⟨raw, hraw, h⟩ := bind_ok.1 h
        obtain ⟨n, -, h⟩ := bind_ok.1 h
        cases h
        have ht2 := touch_ticks hc2
        obtain ⟨c2', t1, t2, t3⟩ := touch_ok g2 g3
        rw [t1] at hc2
        cases hc2
        have := rawScores_hit (k := k) (c := c2) (by rw [t3]; exact g3) hraw
        rw [this]
        omega

end Mozolm.Word
