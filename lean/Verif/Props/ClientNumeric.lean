import Verif.Props.Client
import Verif.XR
import Mathlib.MeasureTheory.Measure.Lebesgue.Basic

/-!
# C41, C50: the client's arithmetic, over the reals
-/

namespace Mozolm.Client

open Scores XR

/-- total probability of the first `n` entries -/
def mass (ps : List ℝ) (n : Nat) : ℝ := (ps.take n).sum

theorem cum_xr (ps : List ℝ) (n : Nat) : cum Arith.xr (ps.map fin) n = fin (mass ps n) := by
  have : ∀ (l : List ℝ) (t : ℝ),
      (l.map fin).foldl Arith.xr.dadd (fin t) = fin (t + l.sum) := by
    intro l
    induction l with
    | nil => intro t; simp
    | cons a l ih =>
      intro t
      simp only [List.map_cons, List.foldl_cons, List.sum_cons]
      have e : XR.add (fin t) (fin a) = fin (t + a) := rfl
      rw [e]
      exact (ih (t + a)).trans (by rw [add_assoc])
  have h0 : Arith.xr.ofInt 0 = fin 0 := by simp [Arith.xr]
  rw [cum, ← List.map_take, h0, this, zero_add, mass]

theorem dlt_xr (a b : ℝ) : Arith.xr.dlt (fin a) (fin b) = decide (a < b) := by
  simp only [XR.lt]
  congr

theorem mass_mono {ps : List ℝ} (h : ∀ p ∈ ps, 0 ≤ p) {i j : Nat} (hij : i ≤ j) :
    mass ps i ≤ mass ps j := by
  rw [mass, mass]
  obtain ⟨k, rfl⟩ := Nat.exists_eq_add_of_le hij
  rw [List.take_add, List.sum_append]
  have : 0 ≤ ((ps.drop i).take k).sum :=
    List.sum_nonneg fun p hp => h p (List.mem_of_mem_drop (List.mem_of_mem_take hp))
  linarith

theorem mass_succ (ps : List ℝ) (i : Nat) (h : i < ps.length) : mass ps (i + 1) = mass ps i + ps[i] := by
  rw [mass, mass, List.take_add_one, List.getElem?_eq_getElem h, List.sum_append]
  simp

/-- **C41** For a proper distribution and a threshold `t` in (0,1) the sampled position is `i` exactly
when `t` lies in the `i`-th of the consecutive intervals of lengths `p₀, p₁, …`. -/
theorem C41_interval (ps : List ℝ) (hp : ∀ p ∈ ps, 0 ≤ p) (hs : ps.sum = 1) (t : ℝ) (h0 : 0 < t)
    (h1 : t ≤ 1) (i : Nat) (hi : i < ps.length) :
    randomPosition Arith.xr (ps.map fin) (fin t) = i ↔ mass ps i < t ∧ t ≤ mass ps (i + 1) := by
  have hne : ps.map fin ≠ [] := by
    intro e; rw [List.map_eq_nil_iff] at e; rw [e] at hi; simp at hi
  obtain ⟨a, b, c⟩ := C41_first_to_reach (A := Arith.xr) (ps.map fin) (fin t) hne
  generalize hpos : randomPosition Arith.xr (ps.map fin) (fin t) = pos at a b c
  rw [List.length_map] at a c
  have hm0 : mass ps 0 = 0 := by simp [mass]
  have key : mass ps pos < t ∧ t ≤ mass ps (pos + 1) := by
    constructor
    · rcases Nat.eq_zero_or_pos pos with e | e
      · rw [e, hm0]; exact h0
      · have := b pos (Nat.le_refl _) e
        rw [cum_xr, dlt_xr] at this
        simpa using this
    · rcases c with c | c | ⟨c, d⟩
      · rw [cum_xr, dlt_xr] at c
        simpa using c
      · rw [c, mass, List.take_length, hs]; exact h1
      · have e : Arith.xr.ofInt 0 = fin 0 := by simp [Arith.xr]
        rw [e, dlt_xr] at d
        simp at d
        linarith
  constructor
  · rintro rfl; exact key
  · rintro ⟨k1, k2⟩
    rcases Nat.lt_trichotomy pos i with h | h | h
    · have := mass_mono hp (show pos + 1 ≤ i by omega); linarith [key.2]
    · exact h
    · have := mass_mono hp (show i + 1 ≤ pos by omega); linarith [key.1]

/-- **C41** With a uniform threshold in [0,1) position `i` is sampled with probability exactly `pᵢ`:
the set of thresholds that yield `i` has length `pᵢ`. -/
theorem C41_proportional (ps : List ℝ) (hp : ∀ p ∈ ps, 0 ≤ p) (hs : ps.sum = 1) (i : Nat)
    (hi : i < ps.length) :
    MeasureTheory.volume
      {t : ℝ | t ∈ Set.Ico 0 1 ∧ randomPosition Arith.xr (ps.map fin) (fin t) = i} =
      ENNReal.ofReal ps[i] := by
  have hm0 : mass ps 0 = 0 := by simp [mass]
  have hlo : 0 ≤ mass ps i := by rw [← hm0]; exact mass_mono hp (Nat.zero_le _)
  have hhi : mass ps (i + 1) ≤ 1 := by
    have : mass ps ps.length = 1 := by rw [mass, List.take_length, hs]
    rw [← this]; exact mass_mono hp hi
  have hlen : mass ps (i + 1) - mass ps i = ps[i] := by rw [mass_succ ps i hi]; ring
  apply le_antisymm
  · calc _ ≤ MeasureTheory.volume (Set.Icc (mass ps i) (mass ps (i + 1)) ∪ {0}) := by
          apply MeasureTheory.measure_mono
          rintro t ⟨⟨ht0, ht1⟩, e⟩
          rcases ht0.eq_or_lt with h | h
          · right; exact h.symm
          · left
            obtain ⟨x, y⟩ := (C41_interval ps hp hs t h ht1.le i hi).1 e
            exact ⟨x.le, y⟩
      _ ≤ MeasureTheory.volume (Set.Icc (mass ps i) (mass ps (i + 1))) + MeasureTheory.volume {(0 : ℝ)} :=
          MeasureTheory.measure_union_le _ _
      _ = ENNReal.ofReal ps[i] := by rw [Real.volume_Icc, Real.volume_singleton, add_zero, hlen]
  · calc ENNReal.ofReal ps[i] = MeasureTheory.volume (Set.Ioo (mass ps i) (mass ps (i + 1))) := by
          rw [Real.volume_Ioo, hlen]
      _ ≤ _ := by
          apply MeasureTheory.measure_mono
          rintro t ⟨h1, h2⟩
          have h0 : 0 < t := by linarith
          have h3 : t < 1 := by linarith
          exact ⟨⟨h0.le, h3⟩, (C41_interval ps hp hs t h0 h3.le i hi).2 ⟨h1, h2.le⟩⟩

/-- **C41** A symbol of probability zero is never drawn, except possibly the first one at the
threshold exactly zero. -/
theorem C41_zero_never (ps : List ℝ) (hp : ∀ p ∈ ps, 0 ≤ p) (hs : ps.sum = 1) (i : Nat)
    (hi : i < ps.length) (hz : ps[i] = 0) (t : ℝ) (h0 : 0 < t) (h1 : t ≤ 1) :
    randomPosition Arith.xr (ps.map fin) (fin t) ≠ i := by
  intro e
  obtain ⟨a, b⟩ := (C41_interval ps hp hs t h0 h1 i hi).1 e
  rw [mass_succ ps i hi, hz] at b
  linarith

/-- a concrete distribution: thresholds in (1/2, 3/4] give the second entry -/
example : randomPosition Arith.xr ([1/2, 1/4, 1/4].map fin) (fin (2/3)) = 1 := by
  refine (C41_interval [1/2, 1/4, 1/4] ?_ ?_ (2/3) ?_ ?_ 1 (by simp)).2 ⟨?_, ?_⟩ <;>
    norm_num [mass]

/-! ## C50 -/

/-- `kMixEpsilon`, the `float` nearest to 1e-8, client_helper.cc:46 -/
noncomputable def mixEps : ℝ := 11258999 / 1125899906842624

/-- `kNumCodepoints`, client_helper.cc:45 -/
noncomputable def numCodepoints : ℝ := 143859

/-- The client's constants and `-log2` over the reals. -/
noncomputable def Env.xr (sort : List (XR × Str) → List (XR × Str)) (decode : Str → List Int) :
    Env Arith.xr where
  sort := sort
  decode := decode
  bits x := XR.div (XR.negLog x) (fin (Real.log 2))
  mixUniform := XR.div (fin mixEps) (fin numCodepoints)
  mixKeep := XR.sub (fin 1) (fin mixEps)

/-- the most a character can cost: bits of a character the model does not know -/
noncomputable def maxBits : ℝ := -Real.log (mixEps / numCodepoints) / Real.log 2

theorem mixUniform_xr (sort decode) :
    (Env.xr sort decode).mixUniform = fin (mixEps / numCodepoints) := by
  simp only [Env.xr, XR.div]
  rw [if_neg (by norm_num [numCodepoints])]

theorem mixKeep_xr (sort decode) : (Env.xr sort decode).mixKeep = fin (1 - mixEps) := by
  simp only [Env.xr, XR.sub, XR.neg, XR.add, sub_eq_add_neg]

theorem bits_xr (sort decode) {r : ℝ} (h : 0 < r) :
    (Env.xr sort decode).bits (fin r) = fin (-Real.log r / Real.log 2) := by
  have h2 : Real.log 2 ≠ 0 := (Real.log_pos (by norm_num)).ne'
  simp only [Env.xr, XR.negLog, if_pos h, XR.div, if_neg h2]

/-- **C50** One character costs a finite, positive number of bits, at most that of an unknown one,
whenever the model's probability for it is in [0,1]. -/
theorem C50_bits_finite (sort decode) (scores : List (XR × Str))
    (hsc : ∀ x ∈ scores, ∃ p : ℝ, x.1 = fin p ∧ 0 ≤ p ∧ p ≤ 1) (sym : Str) :
    ∃ b : ℝ, calculateBits (Env.xr sort decode) (findStringIndex (A := Arith.xr) scores sym) scores =
      .ok (fin b) ∧ 0 < b ∧ b ≤ maxBits ∧
      (findStringIndex (A := Arith.xr) scores sym = none → b = maxBits) := by
  have h2 : 0 < Real.log 2 := Real.log_pos (by norm_num)
  have hu : 0 < mixEps / numCodepoints := by norm_num [mixEps, numCodepoints]
  cases hf : findStringIndex (A := Arith.xr) scores sym with
  | none =>
    refine ⟨maxBits, ?_, ?_, le_rfl, fun _ => rfl⟩
    · rw [calculateBits, mixUniform_xr, bits_xr _ _ hu]; rfl
    · rw [maxBits]
      apply div_pos _ h2
      have := Real.log_neg hu (by norm_num [mixEps, numCodepoints])
      linarith
  | some i =>
    have hi : i < scores.length := by
      rw [findStringIndex] at hf
      obtain ⟨h, _⟩ := List.findIdx?_eq_some_iff_getElem.1 hf
      exact h
    obtain ⟨p, e, p0, p1⟩ := hsc scores[i] (List.getElem_mem hi)
    have hk : (0 : ℝ) < 1 - mixEps := by norm_num [mixEps]
    set q := mixEps / numCodepoints + p * (1 - mixEps) with hq
    have hq0 : mixEps / numCodepoints ≤ q := by
      have := mul_nonneg p0 hk.le
      linarith
    have hq1 : q < 1 := by
      have h3 : p * (1 - mixEps) ≤ 1 - mixEps := by nlinarith
      have h4 : mixEps / numCodepoints < mixEps := by norm_num [mixEps, numCodepoints]
      linarith
    have hqp : 0 < q := by linarith
    refine ⟨-Real.log q / Real.log 2, ?_, ?_, ?_, by intro h; cases h⟩
    · rw [calculateBits]
      simp only [List.getElem?_eq_getElem hi]
      rw [mixUniform_xr, mixKeep_xr, e]
      have : XR.add (fin (mixEps / numCodepoints)) (XR.mul (fin p) (fin (1 - mixEps))) =
          fin q := rfl
      rw [this, bits_xr _ _ hqp]
    · apply div_pos _ h2
      have := Real.log_neg hqp hq1
      linarith
    · rw [maxBits]
      apply div_le_div_of_nonneg_right _ h2.le
      have := Real.log_le_log hu hq0
      linarith

/-- **C50** What one character costs: with `p` the probability the model gave it (its first listing),
minus the binary logarithm of `p` mixed with a little of the uniform distribution over code points; a
character the model did not list costs the most. -/
theorem C50_bits_exact (sort decode) (scores : List (XR × Str)) (sym : Str) :
    (∀ (before after : List (XR × Str)) (p : ℝ), scores = before ++ (fin p, sym) :: after →
      (∀ x ∈ before, x.2 ≠ sym) → 0 ≤ p →
      calculateBits (Env.xr sort decode) (findStringIndex (A := Arith.xr) scores sym) scores =
        .ok (fin (-Real.log (mixEps / numCodepoints + p * (1 - mixEps)) / Real.log 2))) ∧
    ((∀ x ∈ scores, x.2 ≠ sym) →
      calculateBits (Env.xr sort decode) (findStringIndex (A := Arith.xr) scores sym) scores =
        .ok (fin maxBits)) := by
  have hu : 0 < mixEps / numCodepoints := by norm_num [mixEps, numCodepoints]
  constructor
  · rintro before after p rfl hb p0
    have hi : findStringIndex (A := Arith.xr) (before ++ (fin p, sym) :: after) sym =
        some before.length := by
      rw [findStringIndex, List.findIdx?_append, List.findIdx?_eq_none_iff.2 (by simpa using hb)]
      simp [List.findIdx?_cons]
    have hk : (0 : ℝ) < 1 - mixEps := by norm_num [mixEps]
    have hq : 0 < mixEps / numCodepoints + p * (1 - mixEps) := by
      have := mul_nonneg p0 hk.le
      linarith
    have hg : (before ++ (fin p, sym) :: after)[before.length]? = some (fin p, sym) := by simp
    rw [hi, calculateBits]
    simp only [hg]
    rw [mixUniform_xr, mixKeep_xr, ← bits_xr sort decode hq]
    rfl
  · intro h
    rw [findStringIndex, List.findIdx?_eq_none_iff.2 (by simpa using h), calculateBits, mixUniform_xr,
      bits_xr _ _ hu]
    rfl

/-- The server's replies are probabilities. -/
def Sane {ω : Type} (S : Service XR ω) : Prop :=
  (∀ w c s r, (S.lmScores w c s).1 = some r → ∀ x ∈ r.probs, ∃ p : ℝ, x = fin p ∧ 0 ≤ p ∧ p ≤ 1) ∧
  (∀ w s l n r, (S.update w s l n).1 = some r → ∀ x ∈ r.probs, ∃ p : ℝ, x = fin p ∧ 0 ≤ p ∧ p ≤ 1)

variable {ω : Type}

theorem update_sane {sort decode} (hE : Rearranges (Env.xr sort decode)) {S : Service XR ω} (hS : Sane S)
    {w w' : World XR ω} {c : Str} {s n s' : Int} {hyps : List (XR × Str)}
    (h : updateCountGetDestStateScore (A := Arith.xr) (Env.xr sort decode) S w c s n =
      (some (s', hyps), w')) :
    ∀ x ∈ hyps, ∃ p : ℝ, x.1 = fin p ∧ 0 ≤ p ∧ p ≤ 1 := by
  simp only [updateCountGetDestStateScore, rpcUpdate] at h
  cases hr : (S.update w.srv (Server.toInt32 s) ((Env.xr sort decode).decode c) n).1 with
  | none => rw [hr] at h; simp at h
  | some r =>
    rw [hr] at h
    cases ht : getTopHypotheses (Env.xr sort decode).sort r (-1) with
    | ok hy =>
      simp only [ht] at h
      have hy' : hy = hyps := by
        revert h
        generalize rpcNextState (A := Arith.xr) S _ _ _ = nn
        obtain ⟨a, b⟩ := nn
        cases a with
        | none => intro h; simp at h
        | some s1 => intro h; simp only [Prod.mk.injEq, Option.some.injEq] at h; exact h.1.2
      subst hy'
      intro x hx
      exact hS.2 _ _ _ _ _ hr x.1 ((top_ok hE ht).2.2.2 x hx).1
    | _ => simp [ht] at h

theorem scores_sane {sort decode} (hE : Rearranges (Env.xr sort decode)) {S : Service XR ω} (hS : Sane S)
    {w w' : World XR ω} {c : Str} {s : Int} {hyps : List (XR × Str)}
    (h : getLMScores (A := Arith.xr) (Env.xr sort decode) S w c s = (some hyps, w')) :
    ∀ x ∈ hyps, ∃ p : ℝ, x.1 = fin p ∧ 0 ≤ p ∧ p ≤ 1 := by
  simp only [getLMScores, getLMScore] at h
  cases hr : (S.lmScores w.srv c (Server.toInt32 s)).1 with
  | none => rw [hr] at h; simp at h
  | some r =>
    rw [hr] at h
    cases ht : getTopHypotheses (Env.xr sort decode).sort r (-1) with
    | ok hy =>
      simp only [ht] at h
      have hy' : hy = hyps := by
        by_cases hn : Arith.xr.dle r.norm (Arith.xr.ofInt 0) = true
        · rw [if_pos hn] at h; simp at h
        · rw [if_neg hn] at h
          simp only [Prod.mk.injEq, Option.some.injEq] at h
          exact h.1
      subst hy'
      intro x hx
      exact hS.1 _ _ _ _ hr x.1 ((top_ok hE ht).2.2.2 x hx).1
    | _ => simp [ht] at h

theorem bitsLine_spec {sort decode} (hE : Rearranges (Env.xr sort decode)) {S : Service XR ω} (hS : Sane S)
    (syms : List Str) (w : World XR ω) (n o : Nat) (b : ℝ) (s : Int) (scores : List (XR × Str))
    (hsc : ∀ x ∈ scores, ∃ p : ℝ, x.1 = fin p ∧ 0 ≤ p ∧ p ≤ 1) :
    ∃ res w', bitsLine (A := Arith.xr) (Env.xr sort decode) S w ⟨n, o, fin b⟩ s scores syms =
        .ok (res, w') ∧
      ∀ t, res = some t → ∃ b' : ℝ, t.bits = fin b' ∧ t.chars = n + syms.length ∧ o ≤ t.oov ∧
        t.oov ≤ o + syms.length ∧ b ≤ b' ∧ (syms ≠ [] → b < b') ∧ b' ≤ b + syms.length * maxBits := by
  induction syms generalizing w n o b s scores with
  | nil =>
    refine ⟨_, _, rfl, ?_⟩
    intro t ht
    simp only [Option.some.injEq] at ht
    subst ht
    exact ⟨b, rfl, by simp, le_rfl, by simp, le_rfl, fun h => absurd rfl h, by simp⟩
  | cons sym syms ih =>
    obtain ⟨c, h1, h2, h3, _⟩ := C50_bits_finite sort decode scores hsc sym
    rw [bitsLine]
    simp only [h1, ok_bind]
    generalize hup : updateCountGetDestStateScore (A := Arith.xr) (Env.xr sort decode) S w sym s 1 = up
    obtain ⟨r, w1⟩ := up
    cases r with
    | none => exact ⟨_, _, rfl, by intro t ht; cases ht⟩
    | some x =>
      obtain ⟨s1, scores1⟩ := x
      simp only
      have hadd : XR.add (fin b) (fin c) = fin (b + c) := rfl
      rw [hadd]
      obtain ⟨res, w', e, hh⟩ := ih w1 (n + 1)
        (if (findStringIndex (A := Arith.xr) scores sym).isNone = true then o + 1 else o) (b + c) s1
        scores1 (update_sane hE hS hup)
      refine ⟨res, w', e, ?_⟩
      intro t ht
      obtain ⟨b', k1, k2, k3, k4, k5, k6, k7⟩ := hh t ht
      refine ⟨b', k1, ?_, ?_, ?_, by linarith, fun _ => by linarith, ?_⟩
      · rw [k2, List.length_cons]; omega
      · split at k3 <;> omega
      · rw [List.length_cons]; split at k4 <;> omega
      · rw [List.length_cons]; push_cast; linarith

/-- characters of a file, counting one end-of-string per line -/
def numChars (file : List (List Str)) : Nat := (file.map fun l => l.length + 1).sum

theorem bitsLines_spec {sort decode} (hE : Rearranges (Env.xr sort decode)) {S : Service XR ω}
    (hS : Sane S) (file : List (List Str)) (w : World XR ω) (n o : Nat) (b : ℝ) :
    ∃ res w', bitsLines (A := Arith.xr) (Env.xr sort decode) S w ⟨n, o, fin b⟩ file = .ok (res, w') ∧
      ∀ t, res = some t → ∃ b' : ℝ, t.bits = fin b' ∧ t.chars = n + numChars file ∧ o ≤ t.oov ∧
        t.oov ≤ o + numChars file ∧ b ≤ b' ∧ (file ≠ [] → b < b') ∧
        b' ≤ b + numChars file * maxBits := by
  induction file generalizing w n o b with
  | nil =>
    refine ⟨_, _, rfl, ?_⟩
    intro t ht
    simp only [Option.some.injEq] at ht
    subst ht
    exact ⟨b, rfl, by simp [numChars], le_rfl, by simp, le_rfl, fun h => absurd rfl h, by simp [numChars]⟩
  | cons line lines ih =>
    rw [bitsLines]
    generalize hg : getLMScores (A := Arith.xr) (Env.xr sort decode) S w [] 0 = gl
    obtain ⟨r, w1⟩ := gl
    cases r with
    | none => exact ⟨_, _, rfl, by intro t ht; cases ht⟩
    | some scores =>
      simp only
      obtain ⟨res1, w2, e1, h1⟩ := bitsLine_spec hE hS (line ++ [[]]) w1 n o b 0 scores
        (scores_sane hE hS hg)
      rw [e1]
      simp only [ok_bind]
      cases res1 with
      | none => exact ⟨_, _, rfl, by intro t ht; cases ht⟩
      | some t1 =>
        simp only
        obtain ⟨b1, k1, k2, k3, k4, k5, k6, k7⟩ := h1 t1 rfl
        obtain ⟨n1, o1, bb⟩ := t1
        simp only at k1 k2 k3 k4
        subst k1
        obtain ⟨res, w', e, hh⟩ := ih w2 n1 o1 b1
        refine ⟨res, w', e, ?_⟩
        intro t ht
        obtain ⟨b', m1, m2, m3, m4, m5, m6, m7⟩ := hh t ht
        have hlen : (line ++ [[]]).length = line.length + 1 := by simp
        have hn : numChars (line :: lines) = line.length + 1 + numChars lines := by simp [numChars]
        have hlt : b < b1 := k6 (by simp)
        rw [hlen] at k2 k4 k7
        refine ⟨b', m1, by omega, by omega, by omega, by linarith, fun _ => by linarith, ?_⟩
        rw [hn]
        push_cast at k7 ⊢
        linarith

/-- **C50** For every server that answers with probabilities and every file with at least one line:
no undefined behaviour, and if no RPC fails the reported average is a finite positive number of bits,
at most that of an unknown character; the number of characters counts every character and one end of
string per line. -/
theorem C50_average_finite (sort decode) (hE : Rearranges (Env.xr sort decode)) (S : Service XR ω)
    (hS : Sane S) (w : World XR ω) (file : List (List Str)) (hne : file ≠ []) :
    ∃ res w', calcBitsPerCharacter (A := Arith.xr) (Env.xr sort decode) S w file = .ok (res, w') ∧
      ∀ rep, res = some rep → ∃ b : ℝ, rep.bitsPerChar = fin b ∧ 0 < b ∧ b ≤ maxBits ∧
        rep.chars = numChars file ∧ rep.oov ≤ rep.chars := by
  have h0 : Arith.xr.ofInt 0 = fin 0 := by simp [Arith.xr]
  obtain ⟨res, w', e, h⟩ := bitsLines_spec hE hS file w 0 0 0
  rw [calcBitsPerCharacter, h0, e]
  simp only [ok_bind]
  cases res with
  | none => exact ⟨_, _, rfl, by intro t ht; cases ht⟩
  | some t =>
    obtain ⟨b, k1, k2, _, k4, _, k6, k7⟩ := h t rfl
    refine ⟨_, _, rfl, ?_⟩
    intro rep hrep
    simp only [Option.some.injEq] at hrep
    subst hrep
    have hb : 0 < b := k6 hne
    have hcnt : 0 < numChars file := by
      cases file with
      | nil => exact absurd rfl hne
      | cons l ls => simp [numChars]
    have hc : (0 : ℝ) < (t.chars : ℝ) := by
      have : 0 < t.chars := by omega
      exact_mod_cast this
    refine ⟨b / t.chars, ?_, div_pos hb hc, ?_, by simpa using k2, by simp only; omega⟩
    · simp only
      rw [k1]
      simp only [XR.div, Int.cast_natCast]
      rw [if_neg hc.ne']
    · rw [div_le_iff₀ hc]
      have : (t.chars : ℝ) = numChars file := by rw [k2]; simp
      rw [this]
      linarith

/-- **C50 needs the line**: for an empty file the average is 0/0. -/
theorem C50_empty_file_false (sort decode) (S : Service XR ω) (w : World XR ω) :
    ∃ rep w', calcBitsPerCharacter (A := Arith.xr) (Env.xr sort decode) S w [] = .ok (some rep, w') ∧
      rep.bitsPerChar = nan := by
  refine ⟨_, _, rfl, ?_⟩
  simp [Arith.xr, XR.div]

/-- a server that always answers with the distribution {a: 3/4, end of string: 1/4} -/
noncomputable def fairService : Service XR Unit where
  lmScores _ _ _ := (some ⟨[[97], []], [fin (3/4), fin (1/4)], fin 4⟩, ())
  nextState _ _ _ := (some 1, ())
  update _ _ _ _ := (some ⟨[[97], []], [fin (3/4), fin (1/4)], fin 4⟩, ())
  uniform _ := (fin 0, ())

/-- the hypotheses of the C50 theorems are met -/
example : Sane fairService ∧ Rearranges (Env.xr id fun _ => []) := by
  have h : ∀ x ∈ [fin (3/4 : ℝ), fin (1/4)], ∃ p : ℝ, x = fin p ∧ 0 ≤ p ∧ p ≤ 1 := by
    intro x hx
    simp only [List.mem_cons, List.not_mem_nil, or_false] at hx
    rcases hx with rfl | rfl
    · exact ⟨_, rfl, by norm_num, by norm_num⟩
    · exact ⟨_, rfl, by norm_num, by norm_num⟩
  refine ⟨⟨?_, ?_⟩, fun l => List.Perm.refl _⟩
  · intro w c s r hr
    simp only [fairService, Option.some.injEq] at hr
    subst hr; exact h
  · intro w s l n r hr
    simp only [fairService, Option.some.injEq] at hr
    subst hr; exact h

end Mozolm.Client
