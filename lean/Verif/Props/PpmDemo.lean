import Verif.Props.PpmNumeric

/-!
# The hypotheses of C22-C28, C61 and C62 are met

A model read from a vocabulary, one read from an automaton with counts, and histories of calls on them.
-/

namespace Mozolm.Ppm
open XR
open scoped BigOperators

namespace Demo

/-- options as in the proto, out-of-range ones included -/
noncomputable def opts : Options XR :=
  { maxOrder := 3, alpha := .fin (1/4), beta := .fin 7, static := false, maxCache := 0, modelIsFst := false }

theorem alpha_ok : opts.alpha ≠ .nan := by simp [opts]
theorem beta_ok : opts.beta ≠ .nan := by simp [opts]

example : effective opts.alpha (1/2) = 1/4 ∧ effective opts.beta (3/4) = 3/4 := by
  simp only [effective, opts]
  exact ⟨if_pos (by norm_num), if_neg (by norm_num)⟩

/-- the vocabulary with lines "ab" and "b" -/
def vocab : List (List Str) := [[[97], [98]], [[98]]]

theorem vocab_ok : ∃ c ∈ vocab.flatten, c ∉ epsilonTable.map Prod.snd := ⟨[97], by decide, by decide⟩

/-- a one-byte encoding -/
def enc (n : Int) : Str := [n.toNat]

theorem fresh : ∃ m, Initial Arith.xr OkR opts m ∧ Totals m.core.fst m.chars ∧ m.core.fst = freshFst Arith.xr 2 ∧
    m.symbols = epsilonTable ++ [(1, [97]), (2, [98])] := by
  obtain ⟨m, _, V, h1, _, h3, _, _, h4, _⟩ := read_vocab_ok (A := Arith.xr) (Ok := OkR)
    (laws_of opts alpha_ok beta_ok) vocab_ok
  have hsym : m.symbols = epsilonTable ++ [(1, [97]), (2, [98])] := by
    unfold read at h1
    obtain ⟨r, e1, h1⟩ := Res.bind_eq.mp h1
    obtain ⟨r2, e2, h1⟩ := Res.bind_eq.mp h1
    obtain ⟨c, e3, h1⟩ := Res.bind_eq.mp h1
    have hr : r = (makeEmpty Arith.xr, epsilonTable) := (Res.pure_inj e1).symm
    subst hr
    have hr2 : r2.2 = epsilonTable ++ [(1, [97]), (2, [98])] := by
      have := Res.pure_inj (e2.symm.trans (by rfl : readVocab Arith.xr .none (some (some vocab))
        (makeEmpty Arith.xr, epsilonTable) = pure _))
      rw [this]; rfl
    have hm := Res.pure_inj h1
    rw [← hm]
    rfl
  have hV : V = 2 := by
    have := congrArg List.length h3.dense.labels
    rw [hsym] at this
    simp [epsilonTable] at this
    omega
  exact ⟨m, .vocabulary vocab_ok h1, C22_vocabulary alpha_ok beta_ok vocab_ok h1, by rw [h4, hV], hsym⟩

/-- C61: each of `a`, `b` and end of string has probability 1/3 in the start state. -/
example : ∃ m m' r, Initial Arith.xr OkR opts m ∧ extractLMScores (A := Arith.xr) 0 m = .ok (some r, m') ∧
    r.probs = [.fin (1/3), .fin (1/3), .fin (1/3)] := by
  obtain ⟨m, _, V, h1, _, h3, _, _, h4, _⟩ := read_vocab_ok (A := Arith.xr) (Ok := OkR)
    (laws_of opts alpha_ok beta_ok) vocab_ok
  have hi : Initial Arith.xr OkR opts m := .vocabulary vocab_ok h1
  have hs : (0 : Nat) < m.core.fst.states.length := by rw [h4]; simp [freshFst]
  obtain ⟨p, N, r, m', h, _⟩ := C23_scores alpha_ok beta_ok hi (C22_vocabulary alpha_ok beta_ok vocab_ok h1)
    (encode := enc) .nil hs
  refine ⟨m, m', r, hi, h, ?_⟩
  obtain ⟨cs, N', c1, c2, c3⟩ := C61_fresh_uniform alpha_ok beta_ok vocab_ok h1 hs h
  have hlen : cs.length = 2 := by
    have hperm : cs.Perm [[97], [98]] := by
      rw [List.perm_ext_iff_of_nodup c1 (by decide)]
      intro c
      rw [c2]
      constructor
      · rintro ⟨hc, _⟩
        simp [vocab] at hc ⊢
        omega
      · intro hc
        simp at hc
        rcases hc with rfl | rfl <;> decide
    simpa using hperm.length_eq
  injection c3 with c3
  rw [c3]
  simp only [hlen]
  show [XR.fin (1 / (((2 : Nat) : ℝ) + 1)), .fin (1 / (((2 : Nat) : ℝ) + 1)), .fin (1 / (((2 : Nat) : ℝ) + 1))] = _
  rw [show (((2 : Nat) : ℝ) + 1) = 3 by norm_num]

/-- C22-C27, C62: a history of two updates and a query on it. -/
example : ∃ m0 m m' tr b r, Initial Arith.xr OkR opts m0 ∧ Totals m0.core.fst m0.chars ∧
    Run enc m0 tr m ∧ tr.length = 2 ∧ m.static = false ∧ 0 < m.core.fst.states.length ∧
    (0 : Int) ≤ (if (97 : Int) > 0 then m.symbols.findLabel (enc 97) else 97) ∧
    updateLMCounts enc 0 [97] 3 m = .ok (b, m') ∧ symLMScore enc 0 97 m = r := by
  obtain ⟨m0, hi, ht, hf, hsym⟩ := fresh
  have L := laws_of opts alpha_ok beta_ok
  have hs0 : (0 : Nat) < m0.core.fst.states.length := by rw [hf]; simp [freshFst]
  obtain ⟨m1, u1, u2, _⟩ := C26_update_succeeds L hi (encode := enc) .nil hs0 [97, 98, 0] 2
  have s1 : step enc (.update 0 [97, 98, 0] 2) m0 = .ok (.ok true, m1) := by
    show wrap Answer.ok (updateLMCounts enc ((0 : Nat) : Int) [97, 98, 0] 2) m0 = _
    unfold wrap; rw [u1]
  have r1 : Run enc m0 [(.update 0 [97, 98, 0] 2, .ok true)] m1 := .cons hs0 s1 .nil
  obtain ⟨a2, m2, s2⟩ := C26_no_fault L hi r1 (op := .score 1 98) (by
    show 1 < m1.core.fst.states.length
    have : m0.core.fst.states.length = 2 := by rw [hf]; simp [freshFst]
    omega)
  have r2 := r1.append (.cons (by
    show 1 < m1.core.fst.states.length
    have : m0.core.fst.states.length = 2 := by rw [hf]; simp [freshFst]
    omega) s2 .nil)
  obtain ⟨ord0, u, h0, _⟩ := hi.known L
  obtain ⟨_, _, _, hp, hobs, _⟩ := run_inv r2 h0
  have hlen := hobs.len
  have hs2 : 0 < m2.core.fst.states.length := by omega
  obtain ⟨m3, u3, _⟩ := C26_update_succeeds L hi r2 hs2 [97] 3
  refine ⟨m0, m2, m3, _, true, _, hi, ht, r2, rfl, ?_, hs2, ?_, u3, rfl⟩
  · rw [hp.static, hi.static_eq]; rfl
  · rw [hp.symbols, hsym]
    show (0 : Int) ≤ SymbolTable.findLabel (epsilonTable ++ [(1, [97]), (2, [98])]) [97]
    have : SymbolTable.findLabel (epsilonTable ++ [(1, [97]), (2, [98])]) [97] = 1 := by decide
    omega

/-- An automaton with counts: `a` twice at the start, contexts "" and "a". -/
noncomputable def counts : Fst XR :=
  { start := 0
    states := [⟨.pinf, [⟨0, costOf 2, 1⟩, ⟨1, costOf 2, 2⟩]⟩,
      ⟨.fin 0, [⟨1, costOf 2, 2⟩, ⟨2, .fin 0, 1⟩]⟩,
      ⟨.pinf, [⟨0, .fin 0, 1⟩]⟩] }

theorem ok_one : OkR (.fin 0) := ⟨1, by norm_num, costOf_one.symm⟩
theorem ok_two : OkR (costOf 2) := ⟨2, by norm_num, rfl⟩

theorem counts_wf : WF Arith.xr OkR counts (fun s => if s = 1 then 0 else 1) 3 2 1 := by
  refine ⟨?_, by simp [counts], rfl, rfl, by omega⟩
  intro s st hst
  match s, hst with
  | 0, hst =>
    have : st = ⟨.pinf, [⟨0, costOf 2, 1⟩, ⟨1, costOf 2, 2⟩]⟩ := by simpa [counts] using hst.symm
    subst this
    refine ⟨?_, by simp, by simp, by intro h; omega, fun _ => ⟨.inl (by simp), _, _, _, rfl, by simp [counts], rfl⟩⟩
    intro a ha hl
    simp only [List.mem_cons, List.not_mem_nil, or_false] at ha
    rcases ha with rfl | rfl
    · exact absurd rfl hl
    · exact ⟨ok_two, by simp [counts], .inl rfl, by simp, by simp⟩
  | 1, hst =>
    have : st = ⟨.fin 0, [⟨1, costOf 2, 2⟩, ⟨2, .fin 0, 1⟩]⟩ := by simpa [counts] using hst.symm
    subst this
    refine ⟨?_, by simp, by simp, fun _ => ⟨ok_one, rfl, by simp, ?_⟩, by intro h; omega⟩
    · intro a ha hl
      simp only [List.mem_cons, List.not_mem_nil, or_false] at ha
      rcases ha with rfl | rfl
      · exact ⟨ok_two, by simp [counts], .inr rfl, by simp, by simp⟩
      · exact ⟨ok_one, by simp [counts], .inl rfl, by simp, by simp⟩
    · intro y h1 h2
      have : y = 1 ∨ y = 2 := by omega
      rcases this with rfl | rfl
      · exact ⟨_, List.mem_cons_self, rfl⟩
      · exact ⟨_, List.mem_cons_of_mem _ List.mem_cons_self, rfl⟩
  | 2, hst =>
    have : st = ⟨.pinf, [⟨0, .fin 0, 1⟩]⟩ := by simpa [counts] using hst.symm
    subst this
    refine ⟨?_, by simp, by simp, by intro h; omega, fun _ => ⟨.inl (by simp), _, _, _, rfl, by simp [counts], rfl⟩⟩
    intro a ha hl
    simp only [List.mem_cons, List.not_mem_nil, or_false] at ha
    subst ha
    exact absurd rfl hl
  | s + 3, hst => simp [counts] at hst

theorem counts_totals : Totals counts 2 := by
  intro s b hb
  match s, hb with
  | 0, _ =>
    have h0 : cnt counts 0 0 = 0 := by
      have : count Arith.xr counts 0 (0 : Nat) = none := by simp [count, stateCount, counts]
      rw [cnt_eq, this]; rfl
    have h1 : cnt counts 0 1 = 2 := by
      have : count Arith.xr counts 0 (1 : Nat) = some (costOf 2) := by simp [count, stateCount, counts]
      rw [cnt_eq, this]; exact value_costOf (by norm_num)
    have h2 : cnt counts 0 2 = 0 := by
      have : count Arith.xr counts 0 (2 : Nat) = none := by simp [count, stateCount, counts]
      rw [cnt_eq, this]; rfl
    have ht : total counts 2 0 = 2 := by
      unfold total
      rw [Finset.sum_range_succ, Finset.sum_range_succ, Finset.sum_range_succ, Finset.sum_range_zero, h0, h1, h2]
      norm_num
    rw [ht]
    exact ⟨fun h => by norm_num at h, fun _ => rfl⟩
  | 1, hb => simp [backoff, counts] at hb
  | 2, _ =>
    have ht : total counts 2 2 = 0 := by
      unfold total
      refine Finset.sum_eq_zero fun y hy => ?_
      have : count Arith.xr counts 2 (y : Nat) = none := by
        by_cases hy0 : y = 0
        · simp [count, stateCount, counts, hy0]
        · have : ¬ (0 : Int) = (y : Int) := by omega
          simp [count, stateCount, counts, hy0, this]
      rw [cnt_eq, this]; rfl
    rw [ht]
    exact ⟨fun _ => by rw [costOf_one]; rfl, fun h => absurd h (lt_irrefl _)⟩
  | s + 3, hb => simp [backoff, counts] at hb

def table : SymbolTable := [(0, [60]), (1, [97]), (2, [98])]

theorem table_dense : Dense table 2 := ⟨by decide, by decide⟩

/-- A model read from it, with a vocabulary that adds `c`. -/
example : ∃ m, Initial Arith.xr OkR opts m ∧ Totals m.core.fst m.chars ∧ m.chars = 3 := by
  have hv : some [[[99], [97]]] ≠ (some [] : Option (List (List Str))) := by simp
  obtain ⟨m, V', h1, _, h3, _⟩ := read_fst_ok (A := Arith.xr) (Ok := OkR) (laws_of opts alpha_ok beta_ok)
    counts_wf table_dense (.inl rfl) (some [[[99], [97]]]) hv
  refine ⟨m, .automaton counts_wf table_dense (.inl rfl) hv h1,
    C22_automaton alpha_ok beta_ok counts_wf table_dense counts_totals (.inl rfl) hv h1, ?_⟩
  rw [show m.chars = V' from h3.dense.chars]
  have hl := congrArg List.length h3.dense.labels
  obtain ⟨l, hl'⟩ := h3.kept
  have hsym := h3.symbols
  have hnd := h3.dense.nodup
  have hperm : (m.symbols.map Prod.snd).Perm [[60], [97], [98], [99]] := by
    rw [List.perm_ext_iff_of_nodup hnd (by decide)]
    intro c
    rw [hsym c]
    simp only [table, Option.getD_some, List.map_cons, List.map_nil, List.flatten_cons, List.flatten_nil,
      List.append_nil, List.mem_cons, List.not_mem_nil, or_false]
    tauto
  have := hperm.length_eq
  simp only [List.length_map, List.length_range] at hl
  simp only [List.length_map, List.length_cons, List.length_nil] at this
  omega

/-- The formula at work: after the start state, where `a` was observed twice, `a` has probability
(2 - beta + (beta + alpha) * 2/4) / (2 + alpha). -/
example : Prob counts (1/4) (3/4) 2 1 0 ((2 - 3/4 + (3/4 + 1/4) * (2/4)) / (2 + 1/4)) := by
  have h0 : cnt counts 0 0 = 0 := by
    have : count Arith.xr counts 0 (0 : Nat) = none := by simp [count, stateCount, counts]
    rw [cnt_eq, this]; rfl
  have h1 : cnt counts 0 1 = 2 := by
    have : count Arith.xr counts 0 (1 : Nat) = some (costOf 2) := by simp [count, stateCount, counts]
    rw [cnt_eq, this]; exact value_costOf (by norm_num)
  have h2 : cnt counts 0 2 = 0 := by
    have : count Arith.xr counts 0 (2 : Nat) = none := by simp [count, stateCount, counts]
    rw [cnt_eq, this]; rfl
  have ht : total counts 2 0 = 2 := by
    unfold total
    rw [Finset.sum_range_succ, Finset.sum_range_succ, Finset.sum_range_succ, Finset.sum_range_zero, h0, h1, h2]
    norm_num
  have hd : (distinct counts 2 0 : ℝ) = 1 := by
    rw [distinct_eq, Finset.sum_range_succ, Finset.sum_range_succ, Finset.sum_range_succ, Finset.sum_range_zero]
    have e0 : count Arith.xr counts 0 (0 : Nat) = none := by simp [count, stateCount, counts]
    have e1 : count Arith.xr counts 0 (1 : Nat) = some (costOf 2) := by simp [count, stateCount, counts]
    have e2 : count Arith.xr counts 0 (2 : Nat) = none := by simp [count, stateCount, counts]
    rw [e0, e1, e2]; simp [num]
  have u0 : cnt counts 1 0 = 1 := by
    have : count Arith.xr counts 1 (0 : Nat) = some (.fin 0) := by simp [count, stateCount, counts]
    rw [cnt_eq, this, ← costOf_one]; exact value_costOf (by norm_num)
  have u1 : cnt counts 1 1 = 2 := by
    have : count Arith.xr counts 1 (1 : Nat) = some (costOf 2) := by simp [count, stateCount, counts]
    rw [cnt_eq, this]; exact value_costOf (by norm_num)
  have u2 : cnt counts 1 2 = 1 := by
    have : count Arith.xr counts 1 (2 : Nat) = some (.fin 0) := by simp [count, stateCount, counts]
    rw [cnt_eq, this, ← costOf_one]; exact value_costOf (by norm_num)
  have ut : total counts 2 1 = 4 := by
    unfold total
    rw [Finset.sum_range_succ, Finset.sum_range_succ, Finset.sum_range_succ, Finset.sum_range_zero, u0, u1, u2]
    norm_num
  have hu : Prob counts (1/4) (3/4) 2 1 1 (2/4) := by
    have := Prob.unigram (f := counts) (alpha := 1/4) (beta := 3/4) (V := 2) (y := 1) (s := 1) rfl
    rwa [u1, ut] at this
  have := Prob.seen (f := counts) (alpha := 1/4) (beta := 3/4) (V := 2) (y := 1) (s := 0) (b := 1) rfl
    (by rw [ht]; norm_num) hu
  rw [h1, ht, hd, one_mul, max_eq_left (by norm_num)] at this
  exact this

end Demo
end Mozolm.Ppm
