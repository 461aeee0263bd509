import Verif.Props.Session
import Verif.Props.PpmMemoryDemo

/-! # C77 and C78 at work -/

namespace Mozolm.System
open Mozolm.Hub Mozolm.Server
open Mozolm.Ppm (Keeps Memory Learner spelled)
open Mozolm.Ppm.MemoryDemo (options table M2)

theorem Learner.served {encode : Int → Str} {o : Ppm.Options XR} {K : Nat} {M : Memory} {m0 : Ppm.Model Arith.xr} (h : Learner o K M m0) :
    Served encode (.ppm m0 : Component Arith.xr) := .ppm (Ok := Ppm.OkR) (Ppm.laws_of o h.alpha h.beta) h.initial

/-- a model of the letters `a` and `b` that has learnt nothing -/
theorem demo_learner : ∃ m0 : Ppm.Model Arith.xr, Ppm.read Arith.xr options .none (some (some Ppm.Demo.vocab)) = pure m0 ∧
    Learner options 2 Memory.blank m0 ∧ m0.symbols = table ∧ m0.chars = 2 := by
  obtain ⟨m0, h1, _, h2⟩ := Ppm.vocabulary_learner (o := options) (order := 2) (by simp [options]) (by simp [options]) rfl (by simp [options])
    (ls := Ppm.Demo.vocab) ⟨[97], by decide, by decide⟩
  have hsym := Ppm.MemoryDemo.symbols h1
  exact ⟨m0, h1, h2, hsym, by unfold Ppm.Model.chars; rw [hsym]; rfl⟩

/-- the default configuration -/
def demoConfig : HubConfig XR := { mixture := .none, weights := [], bayesianHistoryLength := 0, maxStates := 0 }

/-- C77: a server in front of such a model, taught `ab` once, expects `b` after `a` with probability one half. -/
example : ∃ (m0 : Ppm.Model Arith.xr) (fuel : Nat) (h0 h1 h2 : Hub Arith.xr (Component Arith.xr)) (rep : Reply (LMScores XR)) (r : LMScores XR),
    Ppm.read Arith.xr options .none (some (some Ppm.Demo.vocab)) = pure m0 ∧
    initializeModels (env Arith.xr Ppm.Demo.enc fuel id id) [.ppm m0] demoConfig = .ok (some h0) ∧
    updateLMScores (env Arith.xr Ppm.Demo.enc fuel id id) h0 0 [97, 98] 1 = .ok (rep, h1) ∧
    getLMScores (env Arith.xr Ppm.Demo.enc fuel id id) h1 [97] 0 = .ok (.ok r, h2) ∧
    r.symbols = [[], [97], [98]] ∧ r.probs[2]? = some (.fin (1/2)) := by
  obtain ⟨m0, hread, hl, hsym, hch⟩ := demo_learner
  have hs : ∀ m ∈ [(.ppm m0 : Component Arith.xr)], Served Ppm.Demo.enc m := by
    intro m hm
    rw [List.mem_singleton.1 hm]; exact Learner.served hl
  obtain ⟨b1, hb1⟩ := C77_server hl (models := [.ppm m0]) rfl hs
  obtain ⟨b2, hb2⟩ := C72_update_service hs (by simp)
  have hf : (env Arith.xr Ppm.Demo.enc (max b1 b2) id id).Fair := ⟨fun _ => .refl _, fun _ => .refl _⟩
  obtain ⟨h0, hr0⟩ : ∃ h0, initializeModels (env Arith.xr Ppm.Demo.enc (max b1 b2) id id) [.ppm m0] demoConfig = .ok (some h0) :=
    ⟨_, by rw [initialize_eq hf, if_neg (by simp [demoConfig])]⟩
  have hreach : Server.Reach (env Arith.xr Ppm.Demo.enc (max b1 b2) id id) [.ppm m0] demoConfig [] h0 := ⟨h0, hr0, rfl⟩
  have hpos := (hreach.good hf).inv.pos
  obtain ⟨rep, h1, e1, _⟩ := hb2 _ (by omega) _ _ hf demoConfig [] h0 (by simp [demoConfig]) hreach 0 (by decide) (by decide) (by omega)
    [97, 98] (by decide) 1
  have hreach1 : Server.Reach (env Arith.xr Ppm.Demo.enc (max b1 b2) id id) [.ppm m0] demoConfig [.updateLMScores 0 [97, 98] 1] h1 :=
    ⟨h0, hr0, by simp only [Server.serveAll, Server.serve, e1, ok_bind]⟩
  have hg := (C77_room hf hreach1 (by decide)).1
  obtain ⟨_, M, i0, htaught, _, hteach⟩ := hb1 _ (by omega) _ _ hf demoConfig [] h0 (by simp [demoConfig]) (by decide) hreach
  cases htaught
  have hnext : getNextState (env Arith.xr Ppm.Demo.enc (max b1 b2) id id) h0 [] 0 = .ok (.ok 0, h0) := rfl
  obtain ⟨q1, q2, q3⟩ := C77_room hf hreach (by decide)
  have hfit : Fits h0 (0 : Int).toNat [97, 98] := by
    refine .inr (.inl ?_)
    rw [q3]
    have : h0.states.length ≤ 1 := q2
    show h0.states.length + 2 ≤ cfgMax (A := Arith.xr) demoConfig
    have : cfgMax (A := Arith.xr) demoConfig = 10000 := by decide
    omega
  obtain ⟨c, _, _, hc, _, hpre⟩ := hteach [] (by simp) 0 (by decide) (by decide) 0 h0 hnext [97, 98] (by decide) hfit 1 rep h1 e1 hg
  obtain ⟨r, h2, e2, p, hp, _, l3, l4, _⟩ := hpre [97] [98] rfl
  refine ⟨m0, _, h0, h1, h2, rep, r, hread, hr0, e1, e2, ?_, ?_⟩
  · rw [l3, hsym]; rfl
  · have hcc := hc rfl
    subst hcc
    rw [l4, hch]
    show some (XR.fin (p 2)) = _
    have hp2 := (hp 2 (by omega)).2
    have hM : counted 2 (Ppm.alphabet m0.symbols Ppm.Demo.enc) Memory.blank [0] [97, 98] 1 = M2 := by
      rw [hsym, ← Ppm.MemoryDemo.learnt]
      rfl
    rw [hM, hsym, hch] at hp2
    have hlong : M2.longest (onto (Ppm.alphabet table Ppm.Demo.enc) [97] [0]) = [1] :=
      Ppm.MemoryDemo.long (fun h => by simpa using Ppm.MemoryDemo.M2_known h) (.inl Ppm.MemoryDemo.M1_one)
    rw [hlong, show Ppm.effective options.alpha (1/2) = 1/2 from if_pos (by norm_num),
      show Ppm.effective options.beta (3/4) = 3/4 from if_pos (by norm_num)] at hp2
    rw [hp2.unique Ppm.MemoryDemo.half]

/-- C78: the session of the Java example, with its text. -/
example : ∃ (m0 : Ppm.Model Arith.xr) (fuel : Nat) (h0 h' : Hub Arith.xr (Component Arith.xr)) (rs : List (LMScores XR)),
    initializeModels (env Arith.xr Ppm.Demo.enc fuel id id) [.ppm m0] demoConfig = .ok (some h0) ∧
    updateModel (env Arith.xr Ppm.Demo.enc fuel id id) 1 h0 0 (List.replicate 5 97 ++ List.replicate 22 98) = .ok (some rs, h') ∧
    rs.length = 28 := by
  obtain ⟨m0, hread, hl, hsym, hch⟩ := demo_learner
  have hs : ∀ m ∈ [(.ppm m0 : Component Arith.xr)], Served Ppm.Demo.enc m := by
    intro m hm
    rw [List.mem_singleton.1 hm]; exact Learner.served hl
  obtain ⟨b1, hb1⟩ := C78_session hl (models := [.ppm m0]) rfl hs
  have hf : (env Arith.xr Ppm.Demo.enc b1 id id).Fair := ⟨fun _ => .refl _, fun _ => .refl _⟩
  obtain ⟨h0, hr0⟩ : ∃ h0, initializeModels (env Arith.xr Ppm.Demo.enc b1 id id) [.ppm m0] demoConfig = .ok (some h0) :=
    ⟨_, by rw [initialize_eq hf, if_neg (by simp [demoConfig])]⟩
  obtain ⟨_, M, _, _, hall⟩ := hb1 _ (by omega) _ _ hf demoConfig [] h0 (by simp [demoConfig]) (by decide) ⟨h0, hr0, rfl⟩
  obtain ⟨out, h', _, e, _, _, hroom, hdone⟩ := hall (List.replicate 5 97 ++ List.replicate 22 98) 1 (by decide)
  obtain ⟨rs, rfl, hh, _⟩ := hdone (hroom (by decide))
  exact ⟨m0, _, h0, h', rs, hr0, e, hh.1⟩

end Mozolm.System
