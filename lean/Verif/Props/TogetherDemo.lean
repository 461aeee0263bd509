import Verif.Props.Together
import Verif.Props.SystemMemoryDemo
import Verif.Props.SystemPairsDemo
import Verif.Props.Book

/-! # C104: a PPM and a bigram model of "a" and "b", taught "ab" -/

namespace Mozolm.System.TogetherDemo
open Mozolm.Hub Mozolm.Server

noncomputable def cfg : HubConfig XR := { mixture := .interpolation, weights := [.fin 0, .fin 1], bayesianHistoryLength := 0, maxStates := 20 }

def reqs : List Request := [.updateLMScores 0 [97, 98] 1]

/-- C104: both servers with one of the models, after the update, answer to "a"; so does the server with both, by the mixture of
the two distributions; and its state ids are theirs. -/
example : ∃ (m0 : Ppm.Model Arith.xr) (b : Bigram.Model) (fuel : Nat) (h g1 g2 : Hub Arith.xr (Component Arith.xr)) (rs : List Share) (res : LMScores XR),
    Server.Reach (env Arith.xr Ppm.Demo.enc fuel id id) [.ppm m0, .bigram b] cfg reqs h ∧
    Server.Reach (env Arith.xr Ppm.Demo.enc fuel id id) [.ppm m0] (solo cfg) reqs g1 ∧
    Server.Reach (env Arith.xr Ppm.Demo.enc fuel id id) [.bigram b] (solo cfg) reqs g2 ∧
    (∃ r, Answered (env Arith.xr Ppm.Demo.enc fuel id id) g1 (.getLMScores [97] 0) r) ∧
    (∃ r, Answered (env Arith.xr Ppm.Demo.enc fuel id id) g2 (.getLMScores [97] 0) r) ∧
    Answered (env Arith.xr Ppm.Demo.enc fuel id id) h (.getLMScores [97] 0) res ∧ Mixes rs res ∧ Hub.total rs = 1 ∧ rs.length = 2 ∧
    ∀ ctx x, ∃ k, Directs (env Arith.xr Ppm.Demo.enc fuel id id) h ctx x k ∧ Directs (env Arith.xr Ppm.Demo.enc fuel id id) g2 ctx x k := by
  obtain ⟨m0, hread, hl, hsym, hch⟩ := demo_learner
  obtain ⟨b, hb, hu, hc⟩ := PairsDemo.read_file
  have hap : Adaptive (.ppm m0) := .ppm hl.alpha hl.beta hl.initial hl.totals
  have hab : Adaptive (.bigram b) := .bigram hb
  have ha : ∀ m ∈ [Component.ppm m0, .bigram b], Adaptive m := by
    intro m hm
    simp only [List.mem_cons, List.not_mem_nil, or_false] at hm
    rcases hm with rfl | rfl <;> assumption
  have hs : ∀ m ∈ [Component.ppm m0, .bigram b], Served Ppm.Demo.enc m := fun m hm => (ha m hm).served
  have hs1 : ∀ m ∈ [Component.ppm m0], Served Ppm.Demo.enc m := fun m hm => hs m (by simp_all)
  have hs2 : ∀ m ∈ [Component.bigram (A := Arith.xr) b], Served Ppm.Demo.enc m := fun m hm => hs m (by simp_all)
  obtain ⟨b1, hb1⟩ := C104_adaptive (encode := Ppm.Demo.enc) ha
  obtain ⟨b2, hb2⟩ := C104_states (A := Arith.xr) hs
  obtain ⟨b3, hb3⟩ := serves (A := Arith.xr) hs (by simp)
  obtain ⟨b4, hb4⟩ := C72_service (A := Arith.xr) hs1 (by simp)
  obtain ⟨b5, hb5⟩ := C72_service (A := Arith.xr) hs2 (by simp)
  obtain ⟨b6, hb6⟩ := C80_memory hs1 hl (j := 0) rfl
  obtain ⟨b7, hb7⟩ := C84_table (A := Arith.xr) hs2 (j := 0) rfl
  obtain ⟨fuel, f1, f2, f3, f4, f5, f6, f7⟩ : ∃ f, b1 ≤ f ∧ b2 ≤ f ∧ b3 ≤ f ∧ b4 ≤ f ∧ b5 ≤ f ∧ b6 ≤ f ∧ b7 ≤ f :=
    ⟨b1 + b2 + b3 + b4 + b5 + b6 + b7, by omega, by omega, by omega, by omega, by omega, by omega, by omega⟩
  have hf : (env Arith.xr Ppm.Demo.enc fuel id id).Fair := ⟨fun _ => .refl _, fun _ => .refl _⟩
  obtain ⟨h0, hr0⟩ : ∃ h0, initializeModels (env Arith.xr Ppm.Demo.enc fuel id id) [.ppm m0, .bigram b] cfg = .ok (some h0) :=
    ⟨_, by rw [initialize_eq hf, if_neg (by simp [cfg])]⟩
  obtain ⟨h, e1⟩ := hb3 _ f3 _ _ hf cfg [] h0 (by simp [cfg]) (by simp [cfg]) ⟨h0, hr0, rfl⟩ (.updateLMScores 0 [97, 98] 1)
  have hr : Server.Reach (env Arith.xr Ppm.Demo.enc fuel id id) [.ppm m0, .bigram b] cfg reqs h :=
    ⟨h0, hr0, by simp only [reqs, serveAll, e1, ok_bind]⟩
  have hty : Server.Typed reqs := by simp [Server.Typed, reqs, Request.text]
  obtain ⟨g1, hg1, _⟩ := hb2 _ f2 _ _ hf cfg reqs h hr hty (.inl (by simp [cfg])) 0 (.ppm m0) rfl (.inl rfl)
  obtain ⟨g2, hg2, hd2⟩ := hb2 _ f2 _ _ hf cfg reqs h hr hty (.inl (by simp [cfg])) 1 (.bigram b) rfl (.inr (by simp [cfg]))
  -- no counter runs over
  have hw : (cfgWeights (A := Arith.xr) (solo cfg)).length = 1 := by simp [cfgWeights, solo]
  have len : ∀ {m : Component Arith.xr} {g}, Server.Reach (env Arith.xr Ppm.Demo.enc fuel id id) [m] (solo cfg) reqs g → g.models.length = 1 := by
    intro m g hg
    obtain ⟨calls, hc⟩ := hg.hub
    exact (Hub.reach_good hf hc).const.models.length_eq.symm
  have hov : ∀ {m m' : Component Arith.xr} {g}, Server.Reach (env Arith.xr Ppm.Demo.enc fuel id id) [m] (solo cfg) reqs g → g.models[0]? = some m' →
      m' ≠ .overflow → ∀ x ∈ g.models, x ≠ .overflow := by
    intro m m' g hg hm hne x hx
    obtain ⟨y, hy⟩ := List.length_eq_one_iff.1 (len hg)
    rw [hy] at hx hm
    cases hm
    rw [List.mem_singleton.1 hx]
    exact hne
  have ans1 : ∃ r, Answered (env Arith.xr Ppm.Demo.enc fuel id id) g1 (.getLMScores [97] 0) r := by
    obtain ⟨m, k1, _⟩ := hb6 _ f6 _ _ hf (solo cfg) reqs g1 (by omega) hg1 hty (by decide)
    obtain ⟨rep, g', e, k2⟩ := (hb4 _ f4 _ _ hf (solo cfg) reqs g1 (by simp [solo]) hg1).2 [97] 0
    obtain ⟨r, rfl⟩ := k2 (hov hg1 k1 (by simp)) (.inl (by simp))
    exact ⟨r, g', e⟩
  have ans2 : ∃ r, Answered (env Arith.xr Ppm.Demo.enc fuel id id) g2 (.getLMScores [97] 0) r := by
    obtain ⟨_, T, _, _, hT, k1⟩ := hb7 _ f7 _ _ hf (solo cfg) reqs g2 (by omega) hg2
    have hT := hT (by intro s cs n hm; simp [reqs] at hm; rw [hm.1]; rfl)
    have hwi : T.Within b.utf8 := by
      have : ∀ a ∈ [97, 98], ∀ b' ∈ [97, 98], (tableOf b).strings b.utf8 reqs a b' ≤ 3 := by
        simp only [reqs, Pairs.strings, Pairs.add, tableOf, hu, hc]
        decide
      rw [hT, hu]
      rw [hu] at this
      intro x hx y hy
      have := this x hx y hy
      omega
    obtain ⟨m, k1, _⟩ := k1 hwi
    obtain ⟨rep, g', e, k2⟩ := (hb5 _ f5 _ _ hf (solo cfg) reqs g2 (by simp [solo]) hg2).2 [97] 0
    obtain ⟨r, rfl⟩ := k2 (hov hg2 k1 (by simp)) (.inl (by simp))
    exact ⟨r, g', e⟩
  obtain ⟨rs, a1, a2, a3, a4, res, a5, a6⟩ := hb1 _ f1 _ _ hf cfg reqs h [0, 1] rfl rfl rfl (by simp) (by simp [cfg]) hr hty (.getLMScores [97] 0)
    (by decide) (by simp) (fun m hm => by
      simp only [List.mem_cons, List.not_mem_nil, or_false] at hm
      rcases hm with rfl | rfl
      · obtain ⟨r, hr⟩ := ans1; exact ⟨g1, r, hg1, hr⟩
      · obtain ⟨r, hr⟩ := ans2; exact ⟨g2, r, hg2, hr⟩)
  exact ⟨m0, b, fuel, h, g1, g2, rs, res, hr, hg1, hg2, ans1, ans2, a5, a6, a4, by simpa using congrArg List.length a1, hd2⟩

end Mozolm.System.TogetherDemo
