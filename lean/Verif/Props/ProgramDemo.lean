import Verif.Props.ProgramRun
import Verif.Props.CodeDemo

/-! # C106 at work -/

namespace Mozolm.System
open Mozolm.Hub Mozolm.Server
open Mozolm.Ppm (Memory Learner)
open Mozolm.Ppm.MemoryDemo (options)
open Client (Library Outside Waits truncate clientMain literal)

namespace ProgramDemo

/-- the configuration in the file `f`: measure the corpus `t` -/
def config : Config.ClientConfig Unit XR where
  server := { hub := (), address := [], auth := {}, waitForClients := false, poolSize := 0 }
  clientTls := none
  timeout := .fin 30
  job := { type := .bitsPerChar, corpus := [116] }

def host : Config.Host (Config.ClientConfig Unit XR) where
  readFile n := if n = [102] then some [99] else none
  parse t := if t = [99] then some config else none

open Classical in
/-- writes one number -/
noncomputable def library : Library Arith.xr where
  fixed3 _ := literal "0.000"
  double x := if x = .fin ((charBits (1/3) + charBits (1/4)) / 2) then literal "1.8" else []
  toInt64 := truncate

/-- a server at the default address, and the corpus `t` with the line `a` -/
noncomputable def outside (fuel : Nat) : Outside Arith.xr (Hub Arith.xr (Component Arith.xr) × (Nat → XR)) where
  connect address _ _ := if address = literal "localhost:50051" then service (env Arith.xr Ppm.Demo.enc fuel id id) CodeDemo.decode
    else { service (env Arith.xr Ppm.Demo.enc fuel id id) CodeDemo.decode with lmScores := fun w _ _ => (none, w) }
  corpus n := if n = [116] then some [[[97]]] else none

/-- the flags: the configuration is in `f`, a quarter of a second is asked for -/
noncomputable def flags : Config.ClientFlags XR := { configFile := [102], timeout := .fin (1/4) }

theorem quarter_second : Waits flags.timeout 250 := .asked (by norm_num) (by norm_num) (by norm_num) (by norm_num)

end ProgramDemo
open ProgramDemo

/-- C106: half a millisecond is no time, no time is five seconds, and there is no waiting for ever. -/
example : Waits (.fin (1/2000)) 0 ∧ Waits (.fin 0) 5000 ∧ ∀ ms, ¬ Waits .pinf ms :=
  ⟨.asked (by norm_num) (by norm_num) (by norm_num) (by norm_num), .byDefault (by simp [XR.le]), fun ms h => by
    cases h with | byDefault h => exact h⟩

/-- C106: the program measures a corpus of the line `a` with a fresh server at the default address. -/
example : ∃ (m0 : Ppm.Model Arith.xr) (fuel : Nat) (h0 : Hub Arith.xr (Component Arith.xr))
    (w : Client.World XR (Hub Arith.xr (Component Arith.xr) × (Nat → XR))),
    Ppm.read Arith.xr options .none (some (some Ppm.Demo.vocab)) = pure m0 ∧
    initializeModels (env Arith.xr Ppm.Demo.enc fuel id id) [.ppm m0] demoConfig = .ok (some h0) ∧
    clientMain (A := Arith.xr) library (Client.Env.xr id CodeDemo.decode) (outside fuel)
      host 0 ⟨(h0, fun _ => .fin 0), []⟩ flags = .ok ⟨0, literal "Total characters: 2 (0 OOV); bits per character: 1.8\n", w⟩ := by
  obtain ⟨m0, hread, hl, hsym, hch⟩ := demo_learner
  have hs : ∀ m ∈ [(.ppm m0 : Component Arith.xr)], Served Ppm.Demo.enc m := by
    intro m hm
    rw [List.mem_singleton.1 hm]; exact Learner.served hl
  obtain ⟨b1, hb1⟩ := C106_bits_learner (H := Unit)
    (L := library) (encode := Ppm.Demo.enc) (sort := id) (decode := CodeDemo.decode) hl (models := [.ppm m0]) rfl hs
    (by rw [hsym]; decide) (fun _ => .refl _) rfl rfl
  have hf : (env Arith.xr Ppm.Demo.enc b1 id id).Fair := ⟨fun _ => .refl _, fun _ => .refl _⟩
  obtain ⟨h0, hr0⟩ : ∃ h0, initializeModels (env Arith.xr Ppm.Demo.enc b1 id id) [.ppm m0] demoConfig = .ok (some h0) :=
    ⟨_, by rw [initialize_eq hf, if_neg (by simp [demoConfig])]⟩
  obtain ⟨_, M, _, ht, hall⟩ := hb1 _ (by omega) _ _ hf demoConfig [] h0 (by simp [demoConfig]) (by decide) ⟨h0, hr0, rfl⟩
  cases ht
  obtain ⟨w, k, b, M', k1, k2, _⟩ := hall host flags (Config.clientDefaults Arith.xr { config with timeout := .fin (1/4) }) 250
    (outside b1) 0 [[97]]
    (by simp [Config.clientConfigFromFlags, Config.configContents, host, flags])
    rfl quarter_second (by norm_num) rfl rfl (by simp) (by decide) (by decide) (fun _ => .fin 0) []
  rw [hsym, hch] at k1
  obtain ⟨rfl, rfl, rfl⟩ := C81_unique k1 CodeDemo.coded
  refine ⟨m0, b1, h0, w, hread, hr0, ?_⟩
  rw [k2, Client.corpusLine]
  simp only [List.map_cons, List.map_nil, List.length_cons, List.length_nil, List.sum_cons, List.sum_nil]
  rw [library]
  simp only
  rw [if_pos (by norm_num)]
  rfl

end Mozolm.System
