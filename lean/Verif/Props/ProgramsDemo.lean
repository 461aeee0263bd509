import Verif.Props.Programs
import Verif.Props.StartupDemo
import Verif.Props.ProgramDemo
import Verif.Props.PpmTrainDemo

/-! # C110 at work -/

namespace Mozolm.System.ProgramsDemo
open Mozolm.System Mozolm.Hub Mozolm.Server
open Mozolm.Ppm (Memory)

/-- the file `[1]` is the text -/
noncomputable def disk : Disk XR :=
  { bytes := fun _ => none
    lines := fun n => if n = [1] then some Ppm.TrainDemo.text else none
    fst := fun _ => none
    table := fun _ => none
    canonical := fun _ => true, normalized := fun _ => true, maxOrder := fun _ => 2
    train := fun n ls => Ppm.trainLines (Ppm.TrainDemo.countNGrams n) ls }

noncomputable def storage : Storage XR :=
  { modelFile := [1], vocabularyFile := [], ppm := { Ppm.TrainDemo.options with static := false }, wordCache := 5 }

noncomputable def hubConfig : Config.ModelHubConfig (Storage XR) XR :=
  { models := [⟨.ppm, storage, .fin 0⟩], mixture := .none, bayesianHistoryLength := 0, maxStates := 0 }

theorem server : TextServer Ppm.TrainDemo.countNGrams disk (StartupDemo.host hubConfig) (fun _ _ => true) { config := [9] }
    { hub := hubConfig, address := [7], auth := {}, waitForClients := true, poolSize := 3 } storage 2 Ppm.TrainDemo.text none where
  accepted := StartupDemo.accepted hubConfig
  bound := rfl
  model := ⟨_, rfl⟩
  mixture := by simp [hubConfig]
  states := by simp [hubConfig]
  counts := Ppm.TrainDemo.countNGrams_ok
  trains := fun _ _ => rfl
  alpha := by simp [storage, Ppm.TrainDemo.options]
  beta := by simp [storage, Ppm.TrainDemo.options]
  adaptive := rfl
  isText := rfl
  named := by simp [storage]
  text := by simp [storage, disk]
  vocabulary := by simp [storage, Disk.vocabulary]
  order_eq := by simp [storage, Ppm.TrainDemo.options]
  two := by omega
  someChar := ⟨[[97], [98]], by simp [Ppm.TrainDemo.text], by simp⟩
  reserved := by decide
  characters := by decide

/-- a client configured for the address of the server -/
def clientHost : Config.Host (Config.ClientConfig Unit XR) where
  readFile n := if n = [102] then some [99] else none
  parse t := if t = [99] then some { ProgramDemo.config with server := { ProgramDemo.config.server with address := [7] } } else none

/-- only the server listens, and the corpus `t` is the line `a` -/
noncomputable def outside (fuel : Nat) : Client.Outside Arith.xr (Hub Arith.xr (Component Arith.xr) × (Nat → XR)) where
  connect address _ _ := if address = [7] then service (env Arith.xr Ppm.Demo.enc fuel id id) CodeDemo.decode
    else { service (env Arith.xr Ppm.Demo.enc fuel id id) CodeDemo.decode with lmScores := fun w _ _ => (none, w) }
  corpus n := if n = [116] then some [[[97]]] else none

/-- C110: a server trained from the two lines `ab` and `aab`, asked nothing yet, and a client that measures the line `a`: it prints
what coding `a` with the memory of the two lines costs. -/
example : ∃ (t : SymbolTable) (V : Nat) (f0 fuel : Nat) (x : Config.Started (Hub Arith.xr (Component Arith.xr)))
    (w : Client.World XR (Hub Arith.xr (Component Arith.xr) × (Nat → XR))) (k : Nat) (b : ℝ) (M' : Memory),
    serverMain f0 (env Arith.xr Ppm.Demo.enc fuel id id) disk (StartupDemo.host hubConfig) (fun _ _ => true) { config := [9] } = .serves x ∧
    CodedFile storage.ppm 2 V (Ppm.alphabet t Ppm.Demo.enc) (Memory.ofText 2 (Ppm.labelLines t Ppm.TrainDemo.text)) [[97]] k b M' ∧
    Client.clientMain (A := Arith.xr) ProgramDemo.library (Client.Env.xr id CodeDemo.decode) (outside fuel) clientHost 0
      ⟨(x.hub, fun _ => .fin 0), []⟩ ProgramDemo.flags = .ok ⟨0, Client.corpusLine ProgramDemo.library.double 2 k (.fin (b / 2)), w⟩ := by
  obtain ⟨t, V, _, _, fuel, hb⟩ := C110_bits (H := Unit) (L := ProgramDemo.library) (encode := Ppm.Demo.enc) (sort := id)
    (decode := CodeDemo.decode) server (fun _ => .refl _) rfl rfl
  have hf : (env Arith.xr Ppm.Demo.enc fuel id id).Fair := ⟨fun _ => .refl _, fun _ => .refl _⟩
  obtain ⟨x, h1, h2, h3⟩ := hb fuel (Nat.le_refl _) id id hf 0
  obtain ⟨M, ht, hk⟩ := h3 [] x.hub rfl
  obtain rfl := C110_fresh ht
  obtain ⟨w, k, b, M', k1, k2⟩ := hk clientHost ProgramDemo.flags
    (Config.clientDefaults Arith.xr { ProgramDemo.config with server := { ProgramDemo.config.server with address := [7] }, timeout := .fin (1/4) }) 250
    (outside fuel) 0 [[97]] (by simp [Config.clientConfigFromFlags, Config.configContents, clientHost, ProgramDemo.flags])
    rfl ProgramDemo.quarter_second (by norm_num) (by rw [h2]; rfl) (by rw [h2]; rfl) rfl (by simp) (by decide)
    (by simp [roomOf, hubConfig]) (fun _ => .fin 0) []
  exact ⟨t, V, 0, fuel, x, w, k, b, M', h1, k1, by simpa using k2⟩

end Mozolm.System.ProgramsDemo
