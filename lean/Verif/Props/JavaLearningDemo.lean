import Verif.Props.JavaLearning
import Verif.Props.SystemMemoryDemo

/-! # C111 at work -/

namespace Mozolm.System
open Mozolm.Hub Mozolm.Server
open Mozolm.Ppm (Memory Learner)
open Mozolm.Ppm.MemoryDemo (options table)

/-- C111: the example against the server of its README: first one third for the end, `a` and `b`, and at last 5/24, 23/48 and 5/16. -/
example : ∃ (m0 : Ppm.Model Arith.xr) (fuel : Nat) (h0 h' : Hub Arith.xr (Component Arith.xr)),
    Ppm.read Arith.xr options .none (some (some Ppm.Demo.vocab)) = pure m0 ∧
    initializeModels (env Arith.xr Ppm.Demo.enc fuel id id) [.ppm m0] demoConfig = .ok (some h0) ∧
    runLearning (env Arith.xr Ppm.Demo.enc fuel id id) h0 lessonText = .ok (.returns
      ⟨[(.fin (1/3), []), (.fin (1/3), [97]), (.fin (1/3), [98])], [(.fin (5/24), []), (.fin (23/48), [97]), (.fin (5/16), [98])]⟩, h') := by
  obtain ⟨m0, hread, hl, hsym, hch⟩ := demo_learner
  have hs : ∀ m ∈ [(.ppm m0 : Component Arith.xr)], Served Ppm.Demo.enc m := by
    intro m hm
    rw [List.mem_singleton.1 hm]; exact Learner.served hl
  obtain ⟨b1, hb1⟩ := C111_vocabulary hl (models := [.ppm m0]) rfl hs
  have hf : (env Arith.xr Ppm.Demo.enc b1 id id).Fair := ⟨fun _ => .refl _, fun _ => .refl _⟩
  obtain ⟨h0, hr0⟩ : ∃ h0, initializeModels (env Arith.xr Ppm.Demo.enc b1 id id) [.ppm m0] demoConfig = .ok (some h0) :=
    ⟨_, by rw [initialize_eq hf, if_neg (by simp [demoConfig])]⟩
  obtain ⟨⟨e1, e2⟩, h', k1, k2, k3, k4, k5⟩ := hb1 _ (by omega) _ _ hf demoConfig h0 (by simp [demoConfig]) (by decide) hr0 lessonText (by decide)
    (by rw [hsym]; decide) (by decide)
  refine ⟨m0, b1, h0, h', hread, hr0, ?_⟩
  rw [hsym] at k2 k3 k5
  rw [hch] at k4 k5
  have ha : Ppm.effective options.alpha (1/2) = 1/2 := if_pos (by norm_num)
  have hb : Ppm.effective options.beta (3/4) = 3/4 := if_pos (by norm_num)
  have hp : ∀ y : Nat, y ≤ 2 → Ppm.predecessors (lessonText.map fun c : Nat => table.findLabel (Ppm.Demo.enc c)) y = if y = 0 then 1 else 2 := by decide
  have hv : ∀ y : Nat, y ≤ 2 → Ppm.firstChance (1/2) (3/4) 2 (lessonText.map fun c : Nat => table.findLabel (Ppm.Demo.enc c)) y =
      if y = 0 then 5/24 else if y = 1 then 23/48 else 5/16 := by
    intro y hy
    have hh : ((lessonText.map fun c : Nat => table.findLabel (Ppm.Demo.enc c)) ++ [0]).headD 0 = 1 := by decide
    rw [Ppm.firstChance, hh]
    simp only [Finset.sum_range_succ, Finset.sum_range_zero]
    rw [hp y hy, hp 0 (by omega), hp 1 (by omega), hp 2 (by omega)]
    interval_cases y <;> norm_num
  have e1' : e1 = [(.fin (1/3), []), (.fin (1/3), [97]), (.fin (1/3), [98])] := by
    have := List.zip_unzip e1
    rw [List.unzip_eq_map] at this
    simp only at k2 k4
    rw [← this, k2, k4]
    simp [table, Ppm.epsilonTable, List.range_succ]
  have e2' : e2 = [(.fin (5/24), []), (.fin (23/48), [97]), (.fin (5/16), [98])] := by
    have := List.zip_unzip e2
    rw [List.unzip_eq_map] at this
    simp only at k3 k5
    rw [← this, k3, k5, ha, hb]
    simp only [List.range_succ, List.range_zero, List.map_append, List.map_cons, List.map_nil, List.nil_append]
    rw [hv 0 (by omega), hv 1 (by omega), hv 2 (by omega)]
    simp [table, Ppm.epsilonTable]
  rw [k1, e1', e2']

/-- C111: a text of one character beyond the Basic Multilingual Plane, U+1F600, is taught as two, each followed by a question mark. -/
example {A : Arith} {σ : Type} {env : Env A σ} {h h' : Hub A σ} {out : Option Unit} :
    learningLoop env h 0 [0xD83D, 0xDE00] = .ok (out, h') ↔ Session env h 0 [(0x1F600, [63]), (0xDE00, [63])] out h' :=
  C111_characters (text := [0x1F600]) (by intro c hc; rw [List.mem_singleton.1 hc]; exact .inr (by decide))

end Mozolm.System
