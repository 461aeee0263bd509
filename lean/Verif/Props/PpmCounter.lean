import Verif.Ppm.Ticks
import Verif.System.Live
import Verif.Props.PpmDemo

/-!
# C90: the access counter of the PPM cache

`cache_accessed_` and the times stored with cache entries are of type `int` (ppm_as_fst_model.h:154-155, :326), and every
use of an entry adds one.  In the model they are unbounded, so that the theorems about histories (C22-C28 and what rests on
them) are about the code as long as the counter stays below 2^31.  How far it goes is bounded by what is asked, and it does
go past any bound: a server that is asked long enough overflows a signed integer.
-/

namespace Mozolm.Ppm
variable {A : Arith} {Ok : A.C → Prop}

/-- The most cache uses a call can make, `d` being the maximal order plus two: `d` per question; per symbol of an update
`2 d`, and `d (2 d + 1)` for each time it is counted; per symbol of `GetNegLogProbs` `3 d + d (2 d + 1)`. -/
def Op.accesses (d : Nat) : Op → Nat
  | .next _ _ => d
  | .scores _ => d
  | .score _ _ => d
  | .update _ syms count => syms.length * (2 * d + max 1 count.toNat * (d * (2 * d + 1)))
  | .logProbs syms => syms.length * (3 * d + d * (2 * d + 1))

theorem Op.uses_eq (mo : Int) (op : Op) : op.uses mo = op.accesses (mo.toNat + 2) := by
  cases op <;> rfl

theorem read_counter {o : Options A.D} {src : Source A.C} {vocab : Option (Option (List (List Str)))} {m : Model A}
    (h : read A o src vocab = pure m) : m.counter = 0 := by
  unfold read at h
  simp only at h
  obtain ⟨r, _, h⟩ := Res.bind_eq.mp h
  obtain ⟨r2, _, h⟩ := Res.bind_eq.mp h
  obtain ⟨c, _, h⟩ := Res.bind_eq.mp h
  have := Res.pure_inj h
  subst this
  rfl

theorem Initial.counter {o : Options A.D} {m : Model A} (h : Initial A Ok o m) : m.counter = 0 := by
  cases h with
  | vocabulary _ h2 => exact read_counter h2
  | automaton _ _ _ _ h5 => exact read_counter h5

/-- C90: the counter, and with it all times in the cache, is at most the sum of what the calls can use. -/
theorem C90_bound {o : Options A.D} {m0 m : Model A} {encode : Int → Str} {tr : List (Op × Answer A)}
    (L : CountLaws A Ok (initParameters A o).beta) (hi : Initial A Ok o m0) (hr : Run encode m0 tr m) :
    0 ≤ m.counter ∧ m.counter ≤ ((tr.map fun x => x.1.accesses (m.core.maxOrder.toNat + 2)).sum : Nat) ∧
    ∀ e ∈ m.cache, e.updated ≤ e.accessed ∧ e.accessed < m.counter := by
  obtain ⟨ord, V, u, h⟩ := hi.inv L
  obtain ⟨ord', _, h', _⟩ := run_inv hr h
  obtain ⟨h1, h2, h3⟩ := run_ticks hr
  have h0 := hi.counter
  rw [h0] at h2 h3
  refine ⟨h2, ?_, h'.cache.times⟩
  rw [h1]
  simp only [Op.uses_eq] at h3
  omega

/-- C90: as long as that sum is below 2^31, no `int` that counts accesses overflows, at any moment of the history. -/
theorem C90_safe {o : Options A.D} {m0 m : Model A} {encode : Int → Str} {tr tr' : List (Op × Answer A)}
    (hi : Initial A Ok o m0) (hr : Run encode m0 tr m)
    (hpre : tr <+: tr') (hb : (tr'.map fun x => x.1.accesses (m0.core.maxOrder.toNat + 2)).sum ≤ 2147483647) :
    m.counter ≤ 2147483647 := by
  obtain ⟨h1, h2, h3⟩ := run_ticks hr
  rw [hi.counter] at h3
  simp only [Op.uses_eq] at h3
  obtain ⟨t, rfl⟩ := hpre
  rw [List.map_append, List.sum_append] at hb
  omega

/-- The counter goes past any bound: each question for the scores of the start state adds at least one. -/
theorem C90_overflow_false {o : Options A.D} {m0 : Model A} (L : CountLaws A Ok (initParameters A o).beta)
    (hi : Initial A Ok o m0) (encode : Int → Str) (N : Nat) :
    ∃ (tr : List (Op × Answer A)) (m : Model A), Run encode m0 tr m ∧ tr.length = N ∧
      (∀ x ∈ tr, x.1 = .scores m0.core.fst.start) ∧ (N : Int) ≤ m.counter := by
  induction N with
  | zero => exact ⟨[], m0, .nil, rfl, fun x hx => (nomatch hx), by rw [hi.counter]; exact Int.le_refl _⟩
  | succ N ih =>
    obtain ⟨tr, m, h1, h2, h3, h4⟩ := ih
    obtain ⟨ord, V, u, h⟩ := hi.inv L
    obtain ⟨ord', _, h', _, hobs, _⟩ := run_inv h1 h
    have hst : m.core.fst.start = m0.core.fst.start := hobs.start
    have hlt : m0.core.fst.start < m.core.fst.states.length := by
      rw [← hst]; exact h'.wf.start_lt
    obtain ⟨r, m', k1, _⟩ := System.ppm_extract h' (s := (m0.core.fst.start : Int)) (by omega) (by omega)
    have hc := extractLMScores_clicks k1
    have hs : step encode (.scores m0.core.fst.start) m = .ok (.scores (some r), m') := by
      show wrap Answer.scores (extractLMScores (m0.core.fst.start : Int)) m = _
      unfold wrap; rw [k1]
    refine ⟨tr ++ [(.scores m0.core.fst.start, .scores (some r))], m', h1.append (.cons (op := .scores m0.core.fst.start) hlt hs .nil), ?_, ?_, ?_⟩
    · simp [h2]
    · intro x hx
      rw [List.mem_append, List.mem_singleton] at hx
      rcases hx with hx | rfl
      · exact h3 x hx
      · rfl
    · push_cast
      omega

/-- C90: the hypotheses are met, and with them the counter of a model overflows after at most 2^31 questions. -/
example : ∃ (m0 : Model Arith.xr) (tr : List (Op × Answer Arith.xr)) (m : Model Arith.xr), Initial Arith.xr OkR Demo.opts m0 ∧
    Run Demo.enc m0 tr m ∧ tr.length = 2147483648 ∧ 2147483647 < m.counter := by
  obtain ⟨m0, hi, _⟩ := Demo.fresh
  obtain ⟨tr, m, h1, h2, _, h4⟩ := C90_overflow_false (laws_of Demo.opts Demo.alpha_ok Demo.beta_ok) hi Demo.enc 2147483648
  exact ⟨m0, tr, m, hi, h1, h2, by omega⟩

/-- With the default order 4, a hundred million questions are safe. -/
example {tr : List (Op × Answer A)} (h : ∀ x ∈ tr, x.1.accesses 6 = 6) (hl : tr.length ≤ 100000000) :
    (tr.map fun x => x.1.accesses 6).sum ≤ 2147483647 := by
  have : (tr.map fun x => x.1.accesses 6) = List.replicate tr.length 6 := by
    rw [List.eq_replicate_iff]
    refine ⟨by simp, fun b hb => ?_⟩
    obtain ⟨x, hx, rfl⟩ := List.mem_map.mp hb
    exact h x hx
  rw [this, List.sum_replicate]
  simp only [smul_eq_mul]
  omega

end Mozolm.Ppm
