import Verif.Props.Generation
import Verif.Props.Kbest
import Verif.Props.CodeDemo

/-! # C82 and C83 at work -/

namespace Mozolm.System
open Mozolm.Hub Mozolm.Server
open Mozolm.Ppm (Keeps Memory Learner spelled)
open Mozolm.Ppm.MemoryDemo (options table M1)

namespace CodeDemo

theorem codes : Codes table Ppm.Demo.enc decode := by
  refine ⟨?_, ?_⟩
  · intro e he hp
    have : e ∈ ([(1, [97]), (2, [98])] : List (Int × Str)) := by
      rcases List.mem_append.1 he with h | h
      · exact absurd hp ((by decide : ∀ e ∈ Ppm.epsilonTable, ¬ 0 < e.1) e h)
      · exact h
    rcases List.mem_cons.1 this with rfl | h
    · exact ⟨97, by decide, rfl, by decide, rfl⟩
    · rw [List.mem_singleton.1 h]
      exact ⟨98, by decide, rfl, by decide, rfl⟩
  · decide

end CodeDemo

/-- C82: a client generates a text with a server in front of a model that has learnt nothing: it is `a` with probability
one third times one quarter. -/
example : ∃ (m0 : Ppm.Model Arith.xr) (fuel : Nat) (h0 : Hub Arith.xr (Component Arith.xr)),
    Ppm.read Arith.xr options .none (some (some Ppm.Demo.vocab)) = pure m0 ∧
    initializeModels (env Arith.xr Ppm.Demo.enc fuel id id) [.ppm m0] demoConfig = .ok (some h0) ∧
    uniforms {u | ∃ w, Client.randGen (A := Arith.xr) (Client.Env.xr id CodeDemo.decode) (service (env Arith.xr Ppm.Demo.enc fuel id id) CodeDemo.decode) 128
      ⟨(h0, fun i => .fin (u i)), []⟩ [] = .ok (⟨true, [97]⟩, w)} = ENNReal.ofReal (1/12) := by
  obtain ⟨m0, hread, hl, hsym, hch⟩ := demo_learner
  have hs : ∀ m ∈ [(.ppm m0 : Component Arith.xr)], Served Ppm.Demo.enc m := by
    intro m hm
    rw [List.mem_singleton.1 hm]; exact Learner.served hl
  obtain ⟨b1, hb1⟩ := C82_generation (encode := Ppm.Demo.enc) (sort := id) (decode := CodeDemo.decode) hl (models := [.ppm m0]) rfl hs
    (by rw [hsym]; exact CodeDemo.codes) (fun _ => .refl _) rfl
  have hf : (env Arith.xr Ppm.Demo.enc b1 id id).Fair := ⟨fun _ => .refl _, fun _ => .refl _⟩
  obtain ⟨h0, hr0⟩ : ∃ h0, initializeModels (env Arith.xr Ppm.Demo.enc b1 id id) [.ppm m0] demoConfig = .ok (some h0) :=
    ⟨_, by rw [initialize_eq hf, if_neg (by simp [demoConfig])]⟩
  obtain ⟨_, M, _, ht, hall⟩ := hb1 _ (by omega) _ _ hf demoConfig [] h0 (by simp [demoConfig]) (by decide) ⟨h0, hr0, rfl⟩
  cases ht
  obtain ⟨c, _, _, hc, hgen, _⟩ := hall [] (by simp [CodeDemo.decode]) (by decide) [] 128 (by omega)
  rw [hc rfl, hsym, hch] at hgen
  obtain ⟨q, M', c', d1, _, d2⟩ := hgen [97] (by
    intro x hx
    rw [List.mem_singleton.1 hx]
    exact ⟨by decide, by decide, rfl⟩) (by decide)
  obtain ⟨p, hp, d3⟩ := d2 (by decide)
  have ha : Ppm.effective options.alpha (1/2) = 1/2 := if_pos (by norm_num)
  have hb : Ppm.effective options.beta (3/4) = 3/4 := if_pos (by norm_num)
  have hlong : M1.longest [1, 0] = [1] := Ppm.MemoryDemo.long (fun h => by simpa using Ppm.MemoryDemo.M1_known h) Ppm.MemoryDemo.M1_one
  have hd : Drawn options 2 2 (Ppm.alphabet table Ppm.Demo.enc) Memory.blank [0] [97] (1/3 * 1) M1 [1] := by
    refine .cons (by decide) (by rw [ha, hb]; exact CodeDemo.third) (M' := M1) rfl ?_
    change Drawn options 2 2 (Ppm.alphabet table Ppm.Demo.enc) M1 (M1.longest [1, 0]) [] 1 M1 [1]
    rw [hlong]; exact .nil
  obtain ⟨rfl, rfl, rfl⟩ := d1.unique hd
  rw [ha, hb] at hp
  have := hp.unique CodeDemo.quarter
  subst this
  refine ⟨m0, b1, h0, hread, hr0, ?_⟩
  rw [show ([] : Str) ++ ([97] : List Int).flatMap Ppm.Demo.enc = [97] from rfl] at d3
  rw [d3]
  norm_num

/-- sorting by falling probability -/
noncomputable def falling (l : List (XR × Str)) : List (XR × Str) :=
  open Classical in l.mergeSort fun a b => decide (number b.1 ≤ number a.1)

theorem falling_sorts : SortsFalling falling := by
  intro l
  refine ⟨List.mergeSort_perm _ _, fun hfin => ?_⟩
  have hp := List.pairwise_mergeSort (le := fun a b : XR × Str => open Classical in decide (number b.1 ≤ number a.1))
    (fun a b c h1 h2 => by
      simp only [decide_eq_true_eq] at *
      linarith) (fun a b => by
      simp only [Bool.or_eq_true, decide_eq_true_eq]
      exact le_total _ _) l
  have hmem : ∀ x ∈ falling l, ∃ p : ℝ, x.1 = .fin p := fun x hx => hfin x ((List.mergeSort_perm _ _).mem_iff.1 hx)
  refine (List.Pairwise.imp_of_mem (S := fun a b : XR × Str => ¬ XR.lt a.1 b.1) ?_ hp)
  intro a b ha hb hab
  obtain ⟨p, hp⟩ := hmem a ha
  obtain ⟨q, hq⟩ := hmem b hb
  simp only [decide_eq_true_eq] at hab
  simp only [hp, hq, number] at hab
  simpa [hp, hq, XR.lt] using hab

/-- C83: the most likely continuation printed for a server in front of a model that has learnt nothing. -/
example : ∃ (m0 : Ppm.Model Arith.xr) (fuel : Nat) (h0 : Hub Arith.xr (Component Arith.xr)) (sym : Str)
    (w : Client.World XR (Hub Arith.xr (Component Arith.xr) × (Nat → XR))),
    Ppm.read Arith.xr options .none (some (some Ppm.Demo.vocab)) = pure m0 ∧
    initializeModels (env Arith.xr Ppm.Demo.enc fuel id id) [.ppm m0] demoConfig = .ok (some h0) ∧
    Client.oneKbestSample (A := Arith.xr) (Client.Env.xr falling CodeDemo.decode) (service (env Arith.xr Ppm.Demo.enc fuel id id) CodeDemo.decode)
      ⟨(h0, fun _ => .fin 0), []⟩ 1 [] = .ok (some [(.fin (1/3), sym)], w) := by
  obtain ⟨m0, hread, hl, hsym, hch⟩ := demo_learner
  have hs : ∀ m ∈ [(.ppm m0 : Component Arith.xr)], Served Ppm.Demo.enc m := by
    intro m hm
    rw [List.mem_singleton.1 hm]; exact Learner.served hl
  obtain ⟨b1, hb1⟩ := C83_kbest (encode := Ppm.Demo.enc) (sort := falling) (decode := CodeDemo.decode) hl (models := [.ppm m0]) rfl hs
    (by rw [hsym]; decide) falling_sorts
  have hf : (env Arith.xr Ppm.Demo.enc b1 id id).Fair := ⟨fun _ => .refl _, fun _ => .refl _⟩
  obtain ⟨h0, hr0⟩ : ∃ h0, initializeModels (env Arith.xr Ppm.Demo.enc b1 id id) [.ppm m0] demoConfig = .ok (some h0) :=
    ⟨_, by rw [initialize_eq hf, if_neg (by simp [demoConfig])]⟩
  obtain ⟨_, M, _, ht, hall⟩ := hb1 _ (by omega) _ _ hf demoConfig [] h0 (by simp [demoConfig]) (by decide) ⟨h0, hr0, rfl⟩
  cases ht
  obtain ⟨c, w, _, _, hc, _, hk, _⟩ := hall [] (by simp [CodeDemo.decode]) (by decide) (fun _ => .fin 0) []
  have hc0 := hc rfl
  subst hc0
  obtain ⟨l, hl1, e⟩ := hk 1 (by omega)
  obtain ⟨⟨p, sym⟩, rfl⟩ := List.length_eq_one_iff.1 hl1.length
  obtain ⟨y, hy, _, hp⟩ := hl1.told (p, sym) (by simp)
  rw [hch] at hy hp
  have h3 : Memory.blank.Prob (1/2) (3/4) 2 y [0] (1/3) := by
    have h := Memory.Prob.unseen (M := Memory.blank) (alpha := 1/2) (beta := 3/4) (V := 2) (y := y) (c := [0]) (by simp) (fun z _ => rfl) .nil
    convert h using 1
    have hc : ∀ y, Memory.blank.count [] y = 1 := fun _ => rfl
    simp only [Finset.sum_range_succ, Finset.sum_range_zero, hc]
    norm_num
  rw [show Ppm.effective options.alpha (1/2) = 1/2 from if_pos (by norm_num), show Ppm.effective options.beta (3/4) = 3/4 from if_pos (by norm_num)] at hp
  have := hp.unique h3
  simp only at this
  subst this
  exact ⟨m0, b1, h0, sym, w, hread, hr0, e⟩

end Mozolm.System
