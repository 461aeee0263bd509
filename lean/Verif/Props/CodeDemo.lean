import Verif.Props.Code
import Verif.Props.SystemMemoryDemo

/-! # C81 at work -/

namespace Mozolm.System
open Mozolm.Hub Mozolm.Server
open Mozolm.Ppm (Keeps Memory Learner spelled)
open Mozolm.Ppm.MemoryDemo (options table M1)

namespace CodeDemo

/-- the one-byte encoding undone -/
def decode (s : Str) : List Int := s.map fun b => (b : Int)

theorem third : Memory.blank.Prob (1/2) (3/4) 2 1 [0] (1/3) := by
  have h := Memory.Prob.unseen (M := Memory.blank) (alpha := 1/2) (beta := 3/4) (V := 2) (y := 1) (c := [0]) (by simp) (fun z _ => rfl) .nil
  convert h using 1
  have hc : ∀ y, Memory.blank.count [] y = 1 := fun _ => rfl
  simp only [Finset.sum_range_succ, Finset.sum_range_zero, hc]
  norm_num

theorem quarter : M1.Prob (1/2) (3/4) 2 0 [1] (1/4) := by
  obtain ⟨c1, c2, c3, c4, c5, c6⟩ := Ppm.MemoryDemo.M1_counts
  have h := Memory.Prob.unseen (M := M1) (alpha := 1/2) (beta := 3/4) (V := 2) (y := 0) (c := [1]) (by simp)
    (fun z hz => match z, hz with
      | 0, _ => c3
      | 1, _ => c2
      | 2, _ => c1) .nil
  convert h using 1
  simp only [Finset.sum_range_succ, Finset.sum_range_zero, Nat.cast_zero, Nat.cast_one, Nat.cast_ofNat, c4, c5, c6]
  norm_num

theorem used : Memory.blank.use 2 2 (Ppm.alphabet table Ppm.Demo.enc) (.learn [] [97] 1) = M1 := by
  show (if (0 : Int) < 1 then Memory.blank.learn 2 (Ppm.alphabet table Ppm.Demo.enc) 1 (Memory.blank.longest [0]) [97] else Memory.blank) = _
  rw [if_pos (by omega), Memory.longest_self (M := Memory.blank) (Or.inl rfl) (Or.inr rfl)]
  rfl

theorem coded : CodedFile options 2 2 (Ppm.alphabet table Ppm.Demo.enc) Memory.blank [[97]] 0 (charBits (1/3) + charBits (1/4)) M1 := by
  have ha : Ppm.effective options.alpha (1/2) = 1/2 := if_pos (by norm_num)
  have hb : Ppm.effective options.beta (3/4) = 3/4 := if_pos (by norm_num)
  have hl : Memory.blank.longest ((Ppm.alphabet table Ppm.Demo.enc).past []) = [0] :=
    Memory.longest_self (M := Memory.blank) (Or.inl rfl) (Or.inr rfl)
  have hl1 : M1.longest ((Ppm.alphabet table Ppm.Demo.enc).past [97]) = [1] :=
    Ppm.MemoryDemo.long (fun h => by simpa using Ppm.MemoryDemo.M1_known h) Ppm.MemoryDemo.M1_one
  have h1 : Coded options 2 2 (Ppm.alphabet table Ppm.Demo.enc) M1 [97] [] 0 (charBits (1/4)) M1 :=
    .stop (by rw [ha, hb, hl1]; exact quarter)
  have h2 : Coded options 2 2 (Ppm.alphabet table Ppm.Demo.enc) Memory.blank [] [97] 0 (charBits (1/3) + charBits (1/4)) M1 :=
    .known (by decide) (by rw [ha, hb, hl]; exact third) (by rw [used]; exact h1)
  have := CodedFile.cons h2 .nil
  simpa using this

end CodeDemo

/-- C81: a client asks a server in front of a model that has learnt nothing for the bits of a file with the one line `a`:
`a` has probability one third, and after it has been learnt the end of the line one quarter. -/
example : ∃ (m0 : Ppm.Model Arith.xr) (fuel : Nat) (h0 : Hub Arith.xr (Component Arith.xr))
    (w : Client.World XR (Hub Arith.xr (Component Arith.xr) × (Nat → XR))),
    Ppm.read Arith.xr options .none (some (some Ppm.Demo.vocab)) = pure m0 ∧
    initializeModels (env Arith.xr Ppm.Demo.enc fuel id id) [.ppm m0] demoConfig = .ok (some h0) ∧
    Client.calcBitsPerCharacter (Client.Env.xr id CodeDemo.decode) (service (env Arith.xr Ppm.Demo.enc fuel id id) CodeDemo.decode)
      ⟨(h0, fun _ => .fin 0), []⟩ [[[97]]] = .ok (some ⟨2, 0, .fin ((charBits (1/3) + charBits (1/4)) / 2)⟩, w) := by
  obtain ⟨m0, hread, hl, hsym, hch⟩ := demo_learner
  have hs : ∀ m ∈ [(.ppm m0 : Component Arith.xr)], Served Ppm.Demo.enc m := by
    intro m hm
    rw [List.mem_singleton.1 hm]; exact Learner.served hl
  obtain ⟨b1, hb1⟩ := C81_bits (encode := Ppm.Demo.enc) (sort := id) (decode := CodeDemo.decode) hl (models := [.ppm m0]) rfl hs
    (by rw [hsym]; decide) (fun _ => .refl _) rfl
  have hf : (env Arith.xr Ppm.Demo.enc b1 id id).Fair := ⟨fun _ => .refl _, fun _ => .refl _⟩
  obtain ⟨h0, hr0⟩ : ∃ h0, initializeModels (env Arith.xr Ppm.Demo.enc b1 id id) [.ppm m0] demoConfig = .ok (some h0) :=
    ⟨_, by rw [initialize_eq hf, if_neg (by simp [demoConfig])]⟩
  obtain ⟨_, M, _, ht, hall⟩ := hb1 _ (by omega) _ _ hf demoConfig [] h0 (by simp [demoConfig]) (by decide) ⟨h0, hr0, rfl⟩
  cases ht
  obtain ⟨res, w, e, hroom, hdone⟩ := hall [[97]] (by simp) (by decide) (fun _ => .fin 0) []
  obtain ⟨k, b, M', k1, k2, _⟩ := hdone (hroom (by decide))
  rw [hsym, hch] at k1
  obtain ⟨rfl, rfl, rfl⟩ := C81_unique k1 CodeDemo.coded
  refine ⟨m0, b1, h0, w, hread, hr0, ?_⟩
  rw [show ([[97]] : List (List Int)).map (fun line => line.map Ppm.Demo.enc) = [[[97]]] from rfl, k2] at e
  rw [e]
  norm_num

end Mozolm.System
