import Verif.Props.Bigram
import Verif.XR
import Verif.Scores.Numeric
import Mathlib.Algebra.BigOperators.Group.List.Basic
import Mathlib.Data.Real.Basic
import Mathlib.Tactic.Linarith

/-! # C16: the scores of the bigram model are a probability distribution -/

namespace Mozolm.Bigram
open XR

theorem row_sum_pos {row : List Int} (hne : row ≠ []) (h : ∀ c ∈ row, 1 ≤ c) : 0 < row.sum := by
  have : ∀ l : List Int, (∀ c ∈ l, 1 ≤ c) → (l.length : Int) ≤ l.sum := by
    intro l
    induction l with
    | nil => simp
    | cons a l ih =>
      intro h
      have h1 := h a (by simp)
      have h2 := ih fun c hc => h c (by simp [hc])
      simp only [List.length_cons, List.sum_cons, Nat.cast_add, Nat.cast_one]; omega
  have h1 := this row h
  have h2 := List.length_pos_iff.2 hne
  omega

theorem cast_sum (l : List Int) : ((l.sum : Int) : ℝ) = (l.map fun c : Int => (c : ℝ)).sum := by
  induction l with
  | nil => simp
  | cons a l ih => simp [ih]

theorem div_fin {a b : ℝ} (h : b ≠ 0) : XR.div (XR.fin a) (XR.fin b) = XR.fin (a / b) := by
  simp [XR.div, h]

/-- C16: whatever the state id, `ExtractLMScores` succeeds and lists the vocabulary in order with
`count / normaliser` of the row the id stands for; the numbers are positive and sum to one; the
negative log of each is what `SymLMScore` returns for that symbol, and an unknown symbol costs
infinity. -/
theorem C16_scores_are_distribution {m : Model} (h : Reachable m) (enc : Int → Str) (s : Int) :
    ∃ (sc : LMScores XR) (ps : List ℝ) (row : List Int),
      extractLMScores Arith.xr enc m s = .ok sc ∧
      sc.symbols = m.utf8.map enc ∧ sc.probs = ps.map XR.fin ∧
      m.counts[stands m.utf8 s]? = some row ∧
      ps = (row.map fun c : Int => (c : ℝ) / (row.sum : ℝ)) ∧ sc.norm = XR.fin (row.sum : ℝ) ∧
      ps.length = m.utf8.length ∧ (∀ p ∈ ps, 0 < p) ∧ ps.sum = 1 ∧
      (∀ (j : Nat) (c : Int) (p : ℝ), m.utf8[j]? = some c → ps[j]? = some p →
        symLMScore Arith.xr m s c = .ok (XR.fin (-Real.log p))) ∧
      (∀ c, c ∉ m.utf8 → symLMScore Arith.xr m s c = .ok XR.pinf) := by
  have w := h.wf
  have hst : m.fix s = stands m.utf8 s := fix_eq m s
  have hlt := w.fix_lt s
  obtain ⟨row, hr⟩ := exists_getElem?_of_lt (l := m.counts) (i := m.fix s)
    (by rw [w.rowsLen]; exact hlt)
  have hrm := List.mem_of_getElem? hr
  have hrl := w.rowLen row hrm
  have hn := w.sum _ row hr
  have hne : row ≠ [] := by
    intro h0; rw [h0] at hrl; have := w.pos_len; simp at hrl; omega
  have hpos := row_sum_pos hne fun c hc => (w.pos row hrm c hc).1
  have hposR : (0 : ℝ) < (row.sum : ℝ) := by exact_mod_cast hpos
  refine ⟨⟨m.utf8.map enc, row.map fun c : Int => XR.fin ((c : ℝ) / (row.sum : ℝ)), XR.fin (row.sum : ℝ)⟩,
    row.map fun c : Int => (c : ℝ) / (row.sum : ℝ), row, ?_, rfl, ?_, by rw [← hst]; exact hr, rfl,
    rfl, by simp [hrl], ?_, ?_, ?_, ?_⟩
  · unfold extractLMScores
    simp only [hn, hr]
    rw [scoreLoop_eq (us := m.utf8) Arith.xr enc m row.sum row (i := 0) rfl hrl.symm]
    simp only [ok_bind]
    congr 2
    · rw [List.map_fst_zip]; simp [hrl]
    · rw [List.map_snd_zip (by simp [hrl])]
      refine List.map_congr_left fun c hc => ?_
      exact div_fin hposR.ne'
  · simp only [List.map_map]; rfl
  · intro p hp
    obtain ⟨c, hc, rfl⟩ := List.mem_map.1 hp
    have := (w.pos row hrm c hc).1
    have : (0 : ℝ) < (c : ℝ) := by exact_mod_cast (by omega : 0 < c)
    exact div_pos this hposR
  · have := Scores.sum_map_div (row.map fun c : Int => (c : ℝ)) (row.sum : ℝ)
    rw [List.map_map] at this
    simp only [Function.comp_def] at this
    rw [this, ← cast_sum, div_self hposR.ne']
  · intro j c p hc hp
    have hj := lt_of_getElem?_eq_some hc
    obtain ⟨x, hx⟩ := exists_getElem?_of_lt (l := row) (i := j) (by rw [hrl]; exact hj)
    have hpx : p = (x : ℝ) / (row.sum : ℝ) := by
      rw [List.getElem?_map, hx] at hp; simpa using hp.symm
    have hx1 := (w.pos row hrm x (List.mem_of_getElem? hx)).1
    have hp0 : 0 < p := by
      rw [hpx]
      exact div_pos (by exact_mod_cast (by omega : 0 < x)) hposR
    have hidx : nextState m (m.fix s : Nat) c = j := ((C20_next_state h _ c).1 j hc).1
    unfold symLMScore
    simp only [hidx, Int.toNat_natCast, hr, hn, hx]
    rw [if_pos]
    · have e1 : XR.div (XR.fin (x : ℝ)) (XR.fin (row.sum : ℝ)) = XR.fin p := by
        rw [div_fin hposR.ne', hpx]
      exact congrArg Except.ok (by
        show XR.negLog (XR.div (XR.fin (x : ℝ)) (XR.fin (row.sum : ℝ))) = _
        rw [e1, negLog_fin hp0.le, costOf_pos hp0])
    · simp only [Model.validState, Bool.and_eq_true, decide_eq_true_eq]; omega
  · intro c hc
    have hidx : nextState m (m.fix s : Nat) c = -1 := (C20_next_state h _ c).2 hc
    unfold symLMScore
    simp only [hidx]
    rw [if_neg (by simp [Model.validState])]
    exact congrArg Except.ok (by
      show XR.negLog (XR.fin ((0 : Int) : ℝ)) = _
      simp [XR.negLog])

/-- a reachable model, with more than one state and non-uniform counts -/
example : ∃ m, Reachable m ∧ m.counts = [[8, 5], [3, 2]] :=
  ⟨_, ⟨.named (some demoVocab), .named (some demoCounts), _, demoUpdates, rfl, rfl⟩, rfl⟩

end Mozolm.Bigram
