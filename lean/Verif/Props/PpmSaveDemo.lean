import Verif.Props.PpmSave
import Verif.Props.PpmDemo

/-!
# The hypotheses of C89 are met

An automaton whose arcs are not in order, and a history with two updates, two saves, a reopening as a static model.
-/

namespace Mozolm.Ppm
open XR

namespace Demo

/-- As `counts`, with the arcs of the state without a backoff in another order. -/
noncomputable def unsorted : Fst XR :=
  { start := 0
    states := [⟨.pinf, [⟨0, costOf 2, 1⟩, ⟨1, costOf 2, 2⟩]⟩,
      ⟨.fin 0, [⟨2, .fin 0, 1⟩, ⟨1, costOf 2, 2⟩]⟩,
      ⟨.pinf, [⟨0, .fin 0, 1⟩]⟩] }

theorem unsorted_wf : WF Arith.xr OkR unsorted (fun s => if s = 1 then 0 else 1) 3 2 1 := by
  refine ⟨?_, by simp [unsorted], rfl, rfl, by omega⟩
  intro s st hst
  match s, hst with
  | 0, hst =>
    have : st = ⟨.pinf, [⟨0, costOf 2, 1⟩, ⟨1, costOf 2, 2⟩]⟩ := by simpa [unsorted] using hst.symm
    subst this
    refine ⟨?_, by simp, by simp, by intro h; omega, fun _ => ⟨.inl (by simp), _, _, _, rfl, by simp [unsorted], rfl⟩⟩
    intro a ha hl
    simp only [List.mem_cons, List.not_mem_nil, or_false] at ha
    rcases ha with rfl | rfl
    · exact absurd rfl hl
    · exact ⟨ok_two, by simp [unsorted], .inl rfl, by simp, by simp⟩
  | 1, hst =>
    have : st = ⟨.fin 0, [⟨2, .fin 0, 1⟩, ⟨1, costOf 2, 2⟩]⟩ := by simpa [unsorted] using hst.symm
    subst this
    refine ⟨?_, by simp, by simp, fun _ => ⟨ok_one, rfl, by simp, ?_⟩, by intro h; omega⟩
    · intro a ha hl
      simp only [List.mem_cons, List.not_mem_nil, or_false] at ha
      rcases ha with rfl | rfl
      · exact ⟨ok_one, by simp [unsorted], .inl rfl, by simp, by simp⟩
      · exact ⟨ok_two, by simp [unsorted], .inr rfl, by simp, by simp⟩
    · intro y h1 h2
      have : y = 1 ∨ y = 2 := by omega
      rcases this with rfl | rfl
      · exact ⟨_, List.mem_cons_of_mem _ List.mem_cons_self, rfl⟩
      · exact ⟨_, List.mem_cons_self, rfl⟩
  | 2, hst =>
    have : st = ⟨.pinf, [⟨0, .fin 0, 1⟩]⟩ := by simpa [unsorted] using hst.symm
    subst this
    refine ⟨?_, by simp, by simp, by intro h; omega, fun _ => ⟨.inl (by simp), _, _, _, rfl, by simp [unsorted], rfl⟩⟩
    intro a ha hl
    simp only [List.mem_cons, List.not_mem_nil, or_false] at ha
    subst ha
    exact absurd rfl hl
  | s + 3, hst => simp [unsorted] at hst

/-- A model whose arcs saving puts in another order: C89 applies, as to the order of arcs it is `RightComm` that does. -/
theorem save_moves : ∃ m, Initial Arith.xr OkR opts m ∧ ¬ UnigramSorted m.core.fst ∧ (writeFst true m).2 ≠ m := by
  have hd : Dense (epsilonTable ++ [(1, [97]), (2, [98])]) 2 := ⟨rfl, by decide⟩
  have L := laws_of opts alpha_ok beta_ok
  obtain ⟨m, V', k1, _, k3, _, _, k6, _⟩ := read_fst_ok (A := Arith.xr) (Ok := OkR) (o := opts) L unsorted_wf hd
    (src := .fstFile (some (unsorted, epsilonTable ++ [(1, [97]), (2, [98])]))) (.inl rfl) none (by simp)
  have h1 : m.core.fst = unsorted := by
    have hp := read_parts k1
    unfold read at k1
    obtain ⟨r, e1, k1⟩ := Res.bind_eq.mp k1
    obtain ⟨r2, e2, k1⟩ := Res.bind_eq.mp k1
    obtain ⟨c, e3, k1⟩ := Res.bind_eq.mp k1
    have hr : r = (unsorted, epsilonTable ++ [(1, [97]), (2, [98])]) := (Res.pure_inj e1).symm
    subst hr
    have hr2 : r2 = (unsorted, epsilonTable ++ [(1, [97]), (2, [98])]) := (Res.pure_inj e2).symm
    subst hr2
    have hm := Res.pure_inj k1
    rw [← hm]
    exact (calculate_fst e3).1
  refine ⟨m, .automaton unsorted_wf hd (.inl rfl) (by simp) k1, fun h => ?_, fun h => ?_⟩
  · have := h 1 ⟨.fin 0, [⟨2, .fin 0, 1⟩, ⟨1, costOf 2, 2⟩]⟩ (by rw [h1]; rfl) (by rw [h1]; rfl)
    simp at this
  · have h2 : arcSort m.core.fst = m.core.fst := congrArg (fun m : Model Arith.xr => m.core.fst) h
    rw [h1] at h2
    have h3 : (arcSort unsorted).states[1]?.map (fun st => st.arcs.map Arc.label) = some [1, 2] := rfl
    rw [h2] at h3
    have h4 : unsorted.states[1]?.map (fun st => st.arcs.map Arc.label) = some [2, 1] := rfl
    rw [h4] at h3
    simp at h3

/-- C89: a model is saved, updated twice, saved in between and afterwards, and read back as a static model with another
cache: the answers of the history are those without saves, and the questions put to the static model have the same
answers as those put to the updatable one. -/
example : ∃ m0 m tr, Initial Arith.xr OkR opts m0 ∧ SavedRun enc m0 tr m ∧ tr.length = 2 ∧ (writeFst true m0).2 ≠ m0 ∧
    (∃ m', Run enc m0 tr m' ∧ Indistinguishable m m') ∧
    ∃ n, read Arith.xr { opts with static := true, maxCache := 17 } (.fstFile (writeFst true m).1.2) none = pure n ∧
      n.static = true ∧ m.static = false ∧ SameAnswers m n := by
  obtain ⟨m0, hi, _, hmv⟩ := save_moves
  have L := laws_of opts alpha_ok beta_ok
  obtain ⟨ord0, V, u0, h0⟩ := hi.inv L
  have h1 := h0.write (.inl C89_exact) true
  have hs1 : (0 : Nat) < (writeFst true m0).2.core.fst.states.length := Nat.lt_of_le_of_lt (Nat.zero_le _) h1.wf.u_lt
  obtain ⟨a2, m2, ord2, _, s2, i2, p2, _⟩ := step_inv h1 enc (op := .update 0 [98, 97] 1) hs1
  have i3 := i2.write (.inl C89_exact) false
  obtain ⟨a4, m4, ord4, _, s4, i4, p4, _⟩ := step_inv i3 enc (op := .update 0 [97, 98, 0] 2) (Nat.lt_of_le_of_lt (Nat.zero_le _) i3.wf.u_lt)
  have hr : SavedRun enc m0 [(.update 0 [98, 97] 1, a2), (.update 0 [97, 98, 0] 2, a4)] m4 :=
    .save true (.call hs1 s2 (.save false (.call (Nat.lt_of_le_of_lt (Nat.zero_le _) i3.wf.u_lt) s4 .nil)))
  obtain ⟨n, k1, k2, _, _, _, k6⟩ := C89_reopen (o' := { opts with static := true, maxCache := 17 }) L hi
    (.inl C89_exact) hr (file := (arcSort m4.core.fst, m4.symbols)) (written := true) (m1 := (writeFst true m4).2) rfl
    ⟨rfl, rfl, rfl⟩ none (by simp) (by simp)
  refine ⟨m0, m4, _, hi, hr, rfl, hmv, C89_saves L hi (.inl C89_exact) hr, n, k1, k2.static_eq, ?_, k6⟩
  rw [p4.static]
  show m2.static = false
  rw [p2.static]
  show m0.static = false
  rw [hi.static_eq]; rfl

end Demo
end Mozolm.Ppm
