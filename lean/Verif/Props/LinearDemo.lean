import Verif.Props.LinearBook
import Verif.Props.ServiceDemo
import Verif.Props.SystemMemoryDemo

/-! # C87: concrete histories -/

namespace Mozolm.Server
open Mozolm.Hub

variable {A : Arith} {σ : Type} {env : Env A σ} {h0 : Hub A σ}

/-- One client asks for a state and gets it; another goes on from there. -/
theorem wreach_next {t u : List Int} {x y : Int} {a b : Answer A.D} {h1 h2 : Hub A σ}
    (ha : answer env h0 (.getNextState t x) = .ok (a, h1)) (hb : answer env h1 (.getNextState u y) = .ok (b, h2)) :
    ∃ w : World A σ, WReach env h0 w ∧ w.hub = h2 ∧
      w.log = [.sent 0 (.getNextState t x), .arrived 0 0, .handled 0 (.getNextState t x) a, .got 0 a,
        .sent 1 (.getNextState u y), .arrived 1 3, .handled 1 (.getNextState u y) b, .got 1 b] := by
  have r1 := (wreach_serving (env := env) (h0 := h0)).step (.send _ 0 (.getNextState t x) (by simp))
  have r2 := r1.step (.arrive _ 0 (.getNextState t x) ⟨0, .nextState, .armed⟩ (by simp) (by simp) rfl (by simp [serving]) rfl rfl)
  have r3 := r2.act 0 _ _ rfl (.driveOk _ _ ⟨0, .nextState, .readyOk⟩ (by simp [serving, setPhase]) rfl) (by simp)
  have r4 := r3.act 0 _ _ rfl (.incrYes _ _ _ rfl) (by simp)
  have r5 := r4.act 0 _ _ rfl (.arm _ _ _ rfl) (by simp)
  have r6 := r5.step (.handle _ 0 0 _ 0 (.getNextState t x) a h1 rfl rfl (by simp) (by simp) ha)
  have r7 := r6.step (.get _ 0 (.getNextState t x) a (by simp) ⟨by simp, by simp⟩)
  have r8 := r7.step (.send _ 1 (.getNextState u y) (by simp))
  have r9 := r8.step (.arrive _ 1 (.getNextState u y) ⟨3, .nextState, .armed⟩ (by simp) (by simp) rfl (by simp [serving, setPhase]) rfl rfl)
  have r10 := r9.act 0 _ _ rfl (.driveOk _ _ ⟨3, .nextState, .readyOk⟩ (by simp [serving, setPhase]) rfl) (by simp)
  have r11 := r10.act 0 _ _ rfl (.incrYes _ _ _ rfl) (by simp)
  have r12 := r11.act 0 _ _ rfl (.arm _ _ _ rfl) (by simp)
  have r13 := r12.step (.handle _ 0 3 _ 1 (.getNextState u y) b h2 rfl rfl (by simp) (by simp) hb)
  have r14 := r13.step (.get _ 1 (.getNextState u y) b (by simp) ⟨by simp, by simp⟩)
  exact ⟨_, r14, rfl, rfl⟩

/-- C87: the state of "ab", asked for from the start, and the state of "abc", asked for from there. -/
example : ∃ h0 w, initializeModels Demo.recorder [[]] Demo.cfg10 = .ok (some h0) ∧ WReach Demo.recorder h0 w ∧
    Typed (sentRequests w.log) ∧ RoomFor w.log (cfgMax (A := Arith.unit) Demo.cfg10) ∧ cfgMax (A := Arith.unit) Demo.cfg10 < 2 ^ 31 ∧
    .got 0 (.state (.ok 2)) ∈ w.log ∧ .got 1 (.state (.ok 3)) ∈ w.log ∧
    Before w.log (.got 0 (.state (.ok 2))) (.sent 1 (.getNextState [99] 2)) := by
  obtain ⟨h0, h1, h2, e0, e1, e2⟩ : ∃ h0 h1 h2, initializeModels Demo.recorder [[]] Demo.cfg10 = .ok (some h0) ∧
      answer Demo.recorder h0 (.getNextState [97, 98] 0) = .ok (.state (.ok 2), h1) ∧
      answer Demo.recorder h1 (.getNextState [99] 2) = .ok (.state (.ok 3), h2) := ⟨_, _, _, rfl, rfl, rfl⟩
  obtain ⟨w, hw, _, hl⟩ := wreach_next e1 e2
  refine ⟨h0, w, e0, hw, ?_, ?_, by decide, by rw [hl]; simp, by rw [hl]; simp, ?_⟩
  · rw [hl]; unfold Typed; decide
  · rw [hl]; unfold RoomFor; decide
  · exact ⟨[.sent 0 (.getNextState [97, 98] 0), .arrived 0 0, .handled 0 (.getNextState [97, 98] 0) (.state (.ok 2))], [],
      [.arrived 1 3, .handled 1 (.getNextState [99] 2) (.state (.ok 3)), .got 1 (.state (.ok 3))], by rw [hl]; rfl⟩

end Mozolm.Server

namespace Mozolm.System
open Mozolm.Hub Mozolm.Server
open Ppm.MemoryDemo (options)

/-- C87: three clients of a server that learns, one of them counting "ab" and answered before the second one asks. -/
example : ∃ (m0 : Ppm.Model Arith.xr) (fuel : Nat) (h0 : Hub Arith.xr (Component Arith.xr)) (w : World Arith.xr (Component Arith.xr))
      (a b : Answer XR) (order : List (Nat × Request)),
    Ppm.read Arith.xr options .none (some (some Ppm.Demo.vocab)) = pure m0 ∧
    initializeModels (env Arith.xr Ppm.Demo.enc fuel id id) [.ppm m0] demoConfig = .ok (some h0) ∧
    WReach (env Arith.xr Ppm.Demo.enc fuel id id) h0 w ∧ .got 0 a ∈ w.log ∧ .got 1 b ∈ w.log ∧
    Linear w.log order ∧ Before order (0, .updateLMScores 0 [97, 98] 1) (1, .getLMScores [97] 0) ∧
    ∀ p t r q a, order = p ++ (t, r) :: q → .got t a ∈ w.log →
      ((Book.blank Ppm.Memory.blank).serveAll 2 (Ppm.alphabet m0.symbols Ppm.Demo.enc) (p.map (·.2))).gives options 2
        (Ppm.alphabet m0.symbols Ppm.Demo.enc) m0.symbols m0.chars r a := by
  obtain ⟨m0, hread, hl, hsym, hch⟩ := demo_learner
  have hs : ∀ m ∈ [(.ppm m0 : Component Arith.xr)], Served Ppm.Demo.enc m := by
    intro m hm
    rw [List.mem_singleton.1 hm]; exact Learner.served hl
  obtain ⟨b1, hb1⟩ := C85_handlers hs (by simp)
  obtain ⟨b3, hb3⟩ := C87_book hl (models := [.ppm m0]) rfl hs
  have hf : (env Arith.xr Ppm.Demo.enc (max b1 b3) id id).Fair := ⟨fun _ => .refl _, fun _ => .refl _⟩
  generalize hfu : max b1 b3 = fuel at hf
  obtain ⟨h0, hr0⟩ : ∃ h0, initializeModels (env Arith.xr Ppm.Demo.enc fuel id id) [.ppm m0] demoConfig = .ok (some h0) :=
    ⟨_, by rw [initialize_eq hf, if_neg (by simp [demoConfig])]⟩
  have hreach : Server.Reach (env Arith.xr Ppm.Demo.enc fuel id id) [.ppm m0] demoConfig [] h0 := ⟨h0, hr0, rfl⟩
  obtain ⟨a, h1, e1⟩ := hb1 fuel (by omega) _ _ hf demoConfig [] h0 (by simp [demoConfig]) hreach (.updateLMScores 0 [97, 98] 1)
    (.inl (by simp [demoConfig]))
  have hreach1 := hreach.snoc (answer_serve e1)
  obtain ⟨b, h2, e2⟩ := hb1 fuel (by omega) _ _ hf demoConfig _ h1 (by simp [demoConfig]) hreach1 (.getLMScores [97] 0) trivial
  have hreach2 := hreach1.snoc (answer_serve e2)
  obtain ⟨c, h3, e3⟩ := hb1 fuel (by omega) _ _ hf demoConfig _ h2 (by simp [demoConfig]) hreach2 (.getNextState [97] 0) trivial
  obtain ⟨w, hw, _, hlog⟩ := wreach_three e1 e2 e3
  have hsent : sentRequests w.log = [.getNextState [97] 0, .updateLMScores 0 [97, 98] 1, .getLMScores [97] 0] := by rw [hlog]; rfl
  obtain ⟨order, k1, k2⟩ := hb3 fuel (by omega) _ _ hf demoConfig h0 w (by simp [demoConfig]) hr0 hw
    (by rw [hsent]; unfold Typed; decide) (by unfold RoomFor; rw [hsent]; decide)
  refine ⟨m0, fuel, h0, w, a, b, order, hread, hr0, hw, by rw [hlog]; simp, by rw [hlog]; simp, k1, ?_, k2⟩
  refine k1.realTime 0 _ a 1 _ (k1.acknowledged 0 _ a (by rw [hlog]; simp) (by rw [hlog]; simp))
    (k1.acknowledged 1 _ b (by rw [hlog]; simp) (by rw [hlog]; simp)) ?_
  exact ⟨[.sent 7 (.getNextState [97] 0), .sent 0 (.updateLMScores 0 [97, 98] 1), .arrived 0 2, .handled 0 (.updateLMScores 0 [97, 98] 1) a], [],
      [.arrived 1 1, .arrived 7 0, .handled 1 (.getLMScores [97] 0) b, .handled 7 (.getNextState [97] 0) c, .got 7 c, .got 1 b], by
        rw [hlog]; rfl⟩

end Mozolm.System
