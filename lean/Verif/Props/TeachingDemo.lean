import Verif.Props.TeachingServer
import Verif.Props.SystemMemoryDemo
import Verif.Props.PpmTrainDemo

/-! # C112 at work -/

namespace Mozolm.System
open Mozolm.Hub Mozolm.Server
open Mozolm.Ppm (Memory Learner Made Spelt labelsOf lessons)

/-- any text can be taught -/
theorem teaching_completes {encode : Int → Str} {models : List (Component Arith.xr)} (hs : ∀ m ∈ models, Served encode m) (hm : 0 < models.length) :
    ∃ bound, ∀ fuel, bound ≤ fuel → ∀ orderN orderV, (env Arith.xr encode fuel orderN orderV).Fair →
      ∀ cfg : HubConfig XR, (cfg.mixture = .interpolation → cfg.weights.length ≤ models.length) → ∀ text : List (List Int), (∀ l ∈ text, Printed l) →
        ∀ h0, initializeModels (env Arith.xr encode fuel orderN orderV) models cfg = .ok (some h0) →
        ∃ h, Server.Reach (env Arith.xr encode fuel orderN orderV) models cfg (teaching text) h := by
  obtain ⟨b, hb⟩ := C72_update_service hs hm
  refine ⟨b, fun fuel hfu orderN orderV hf cfg hcfg text => ?_⟩
  induction text using List.reverseRecOn with
  | nil => intro _ h0 hi; exact ⟨h0, h0, hi, rfl⟩
  | append_singleton text l ih =>
    intro ht h0 hi
    obtain ⟨h, hr⟩ := ih (fun l' hl' => ht l' (by simp [hl'])) h0 hi
    have hpos := (hr.good hf).inv.pos
    obtain ⟨rep, h1, e1, _⟩ := hb fuel hfu _ _ hf cfg _ h hcfg hr 0 (by decide) (by decide) (by omega) (l ++ [0]) (fun c hc => by
      rcases List.mem_append.1 hc with h2 | h2
      · exact (ht l (by simp) c h2).le
      · rw [List.mem_singleton.1 h2]) 1
    refine ⟨h1, ?_⟩
    have : teaching (text ++ [l]) = teaching text ++ [.updateLMScores 0 (l ++ [0]) 1] := by simp [teaching]
    rw [this]
    exact reach_append hr (by simp only [Server.serveAll, Server.serve, e1, ok_bind])

namespace TeachingDemo
open Ppm.TrainDemo (countNGrams)
open Ppm.MemoryDemo (options)

/-- two lines, `ab` and `aab` -/
def text : List (List Int) := [[97, 98], [97, 97, 98]]

/-- no line is empty, and the characters are characters -/
theorem text_ok : text ≠ [] ∧ (∀ l ∈ text, l ≠ []) ∧ (∀ l ∈ text, Printed l) ∧ ∀ l ∈ text, ∀ c ∈ l, Ppm.Demo.enc c ≠ Ppm.epsilonName := by
  refine ⟨by decide, by decide, ?_, ?_⟩
  · intro l hl c hc
    have : ∀ l ∈ text, ∀ c ∈ l, 0 < c := by decide
    exact this l hl c hc
  · intro l hl c hc
    have : ∀ l ∈ text, ∀ c ∈ l, Ppm.Demo.enc c ≠ Ppm.epsilonName := by decide
    exact this l hl c hc

/-- the model trained from the two lines and the one that is taught them -/
example : ∃ m1 m2 : Ppm.Model Arith.xr,
    Ppm.readText countNGrams options (some [[[97], [98]], [[97], [97], [98]]]) none = pure m1 ∧
    Ppm.read Arith.xr options .none (some (some [[[97], [98]], [[97], [97], [98]]])) = pure m2 ∧
    ∃ (as2 : List (Ppm.Answer Arith.xr)) (n2 : Ppm.Model Arith.xr),
      Ppm.runCalls Ppm.Demo.enc [.learn [] [97, 98, 0] 1, .learn [] [97, 97, 98, 0] 1] m2 = .ok (as2, n2) ∧
      ∀ past, ∃ (r : LMScores XR) (k1 k2 : Ppm.Model Arith.xr),
        (Ppm.Call.ask past).run Ppm.Demo.enc m1 = .ok (.scores (some r), k1) ∧ (Ppm.Call.ask past).run Ppm.Demo.enc n2 = .ok (.scores (some r), k2) := by
  obtain ⟨t1, t2, t3, t4⟩ := text_ok
  obtain ⟨m1, m2, e1, e2, _, h⟩ := Ppm.C112_training (o := options) (K := 2) (encode := Ppm.Demo.enc) Ppm.TrainDemo.countNGrams_ok (by simp [options])
    (by simp [options]) rfl (by simp [options]) (by omega) t1 t2 t3 t4
  obtain ⟨as1, as2, n1, n2, r1, r2, h⟩ := h []
  cases r1
  exact ⟨m1, m2, e1, e2, as2, n2, r2, h⟩

/-- `ab` twice and `aab`: training from three lines, teaching with counts -/
example : ∃ m1 m2 : Ppm.Model Arith.xr,
    Ppm.readText countNGrams options (some [[[97], [98]], [[97], [98]], [[97], [97], [98]]]) none = pure m1 ∧
    Ppm.read Arith.xr options .none (some (some [[[97], [98]], [[97], [98]], [[97], [97], [98]]])) = pure m2 ∧
    ∃ (as2 : List (Ppm.Answer Arith.xr)) (n2 : Ppm.Model Arith.xr),
      Ppm.runCalls Ppm.Demo.enc [.learn [] [97, 98, 0] 2, .learn [] [97, 97, 98, 0] 1] m2 = .ok (as2, n2) ∧
      ∀ past, ∃ (r : LMScores XR) (k1 k2 : Ppm.Model Arith.xr),
        (Ppm.Call.ask past).run Ppm.Demo.enc m1 = .ok (.scores (some r), k1) ∧ (Ppm.Call.ask past).run Ppm.Demo.enc n2 = .ok (.scores (some r), k2) := by
  obtain ⟨m1, m2, e1, e2, _, h⟩ := Ppm.C112_copies (o := options) (K := 2) (encode := Ppm.Demo.enc) Ppm.TrainDemo.countNGrams_ok (by simp [options])
    (by simp [options]) rfl (by simp [options]) (by omega) (text := [([97, 98], 2), ([97, 97, 98], 1)]) (by decide) (by decide) (by decide) (by decide)
    (by decide)
  obtain ⟨as1, as2, n1, n2, r1, r2, h⟩ := h []
  cases r1
  exact ⟨m1, m2, e1, e2, as2, n2, r2, h⟩

/-- the two servers can be asked, and reply alike -/
example : ∃ (m1 m2 : Ppm.Model Arith.xr) (fuel : Nat) (h1 h2 h1' h2' : Hub Arith.xr (Component Arith.xr)) (r : LMScores XR),
    Ppm.readText countNGrams options (some [[[97], [98]], [[97], [97], [98]]]) none = pure m1 ∧
    Ppm.read Arith.xr options .none (some (some [[[97], [98]], [[97], [97], [98]]])) = pure m2 ∧
    Server.Reach (env Arith.xr Ppm.Demo.enc fuel id id) [.ppm m1] demoConfig [] h1 ∧
    Server.Reach (env Arith.xr Ppm.Demo.enc fuel id id) [.ppm m2] demoConfig
      [.updateLMScores 0 [97, 98, 0] 1, .updateLMScores 0 [97, 97, 98, 0] 1] h2 ∧
    getLMScores (env Arith.xr Ppm.Demo.enc fuel id id) h1 [98, 97] 0 = .ok (.ok r, h1') ∧
    getLMScores (env Arith.xr Ppm.Demo.enc fuel id id) h2 [98, 97] 0 = .ok (.ok r, h2') := by
  obtain ⟨t1, t2, t3, t4⟩ := text_ok
  have hord : ((2 : Nat) : Int) = if options.maxOrder > 0 then options.maxOrder else 4 := by simp [options]
  obtain ⟨m1, m2, e1, e2, b, h⟩ := C112_servers (o := options) (K := 2) (encode := Ppm.Demo.enc) Ppm.TrainDemo.countNGrams_ok (by simp [options])
    (by simp [options]) rfl hord (by omega) t1 t2 t3 t4
  obtain ⟨n1, n2, f1, f2, _, _, _, L1, L2, _⟩ := Ppm.same_file (o := options) (K := 2) (encode := Ppm.Demo.enc) Ppm.TrainDemo.countNGrams_ok
    (by simp [options]) (by simp [options]) rfl hord (by omega) t1 t2 t3 t4
  obtain rfl : m1 = n1 := Ppm.Res.pure_inj (e1.symm.trans f1)
  obtain rfl : m2 = n2 := Ppm.Res.pure_inj (e2.symm.trans f2)
  have s1 : ∀ m ∈ [(.ppm m1 : Component Arith.xr)], Served Ppm.Demo.enc m := fun m hm => by rw [List.mem_singleton.1 hm]; exact Learner.served L1
  have s2 : ∀ m ∈ [(.ppm m2 : Component Arith.xr)], Served Ppm.Demo.enc m := fun m hm => by rw [List.mem_singleton.1 hm]; exact Learner.served L2
  obtain ⟨b1, k1⟩ := C72_service s1 (by simp)
  obtain ⟨b2, k2⟩ := C72_service s2 (by simp)
  obtain ⟨b3, k3⟩ := teaching_completes s2 (by simp)
  generalize hF : max (max b b1) (max b2 b3) = F
  have hf : (env Arith.xr Ppm.Demo.enc F id id).Fair := ⟨fun _ => .refl _, fun _ => .refl _⟩
  have hi : ∀ m : Ppm.Model Arith.xr, ∃ h0, initializeModels (env Arith.xr Ppm.Demo.enc F id id) [.ppm m] demoConfig = .ok (some h0) := fun m =>
    ⟨_, by rw [initialize_eq hf, if_neg (by simp [demoConfig])]⟩
  obtain ⟨h1, i1⟩ := hi m1
  obtain ⟨h0, i2⟩ := hi m2
  have r1 : Server.Reach (env Arith.xr Ppm.Demo.enc F id id) [.ppm m1] demoConfig [] h1 := ⟨h1, i1, rfl⟩
  obtain ⟨h2, r2⟩ := k3 F (by omega) _ _ hf demoConfig (by simp [demoConfig]) text t3 h0 i2
  obtain ⟨rep1, h1', g1, _⟩ := (k1 F (by omega) _ _ hf demoConfig [] h1 (by simp [demoConfig]) r1).2 [98, 97] 0
  obtain ⟨rep2, h2', g2, _⟩ := (k2 F (by omega) _ _ hf demoConfig _ h2 (by simp [demoConfig]) r2).2 [98, 97] 0
  obtain ⟨r, q1, q2⟩ := h F (by omega) _ _ hf demoConfig [] [] h1 h2 (by simp [demoConfig]) (by simp) (by simp) (by simp [Typed]) (by simp [Typed]) r1
    (by rw [List.append_nil]; exact r2) [98, 97] rep1 rep2 h1' h2' (by unfold Printed; decide) (by decide) (by decide) g1 g2
  subst q1 q2
  exact ⟨m1, m2, F, h1, h2, h1', h2', r, e1, e2, r1, r2, g1, g2⟩

end TeachingDemo
end Mozolm.System
