import Verif.Props.SystemPairs
import Verif.Props.SystemUpdate
import Verif.Props.Session
import Mathlib.Tactic.NormNum

/-! # C84: a concrete server

A bigram model of the characters "a" and "b", taught "aba" five times at the start state. -/

namespace Mozolm.System.PairsDemo
open Mozolm.Hub Mozolm.Server

/-- The vocabulary file: 97 and 98. -/
def file : Bigram.FileArg := .named (some [57, 55, 10, 57, 56, 10])

theorem read_file : ∃ m, Bigram.read file .absent = .ok (some m) ∧ m.utf8 = [97, 98] ∧ m.counts = [[1, 1], [1, 1]] := ⟨_, rfl, rfl, rfl⟩

def enc (c : Int) : Str := [c.toNat]

def cfg : HubConfig XR := { mixture := .none, weights := [], bayesianHistoryLength := 0, maxStates := 100 }

def reqs : List Request := [.updateLMScores 0 [97, 98, 97] 5]

/-- The table after the update: 6 of each pair but "bb". -/
theorem table {m : Bigram.Model} (h1 : m.utf8 = [97, 98]) (h2 : m.counts = [[1, 1], [1, 1]]) :
    let T := (tableOf m).strings m.utf8 reqs
    T 97 97 = 6 ∧ T 97 98 = 6 ∧ T 98 97 = 6 ∧ T 98 98 = 1 := by
  simp only [reqs, Pairs.strings, Pairs.add, tableOf, h1, h2]
  decide

/-- C84: the server is reached, and the reply to "ab" is 6/7 for "a", 1/7 for "b"; the reply to the update
itself was 1/2 for both. -/
theorem taught : ∃ (m : Bigram.Model) (fuel : Nat) (h h' : Hub Arith.xr (Component Arith.xr)),
    Bigram.read file .absent = .ok (some m) ∧
    Server.Reach (env Arith.xr enc fuel id id) [.bigram m] cfg reqs h ∧
    getLMScores (env Arith.xr enc fuel id id) h [97, 98] 0 =
      .ok (.ok ⟨[[97], [98]], [.fin (6 / 7), .fin (1 / 7)], .fin 7⟩, h') ∧
    ∃ h0, initializeModels (env Arith.xr enc fuel id id) [.bigram m] cfg = .ok (some h0) ∧
      updateLMScores (env Arith.xr enc fuel id id) h0 0 [97, 98, 97] 5 =
        .ok (.ok ⟨[[97], [98]], [.fin (1 / 2), .fin (1 / 2)], .fin 12⟩, h) := by
  obtain ⟨m, hm, hu, hc⟩ := read_file
  have hs : ∀ x ∈ [Component.bigram (A := Arith.xr) m], Served enc x := by
    intro x hx
    simp only [List.mem_singleton] at hx
    subst hx
    exact .bigram hm
  obtain ⟨b1, hb1⟩ := C84_server (A := Arith.xr) (m0 := m) hs rfl
  obtain ⟨b2, hb2⟩ := C72_service (encode := enc) hs (by simp)
  obtain ⟨b3, hb3⟩ := C72_update_service hs (by simp)
  obtain ⟨fuel, f1, f2, f3⟩ : ∃ f, b1 ≤ f ∧ b2 ≤ f ∧ b3 ≤ f := ⟨max b1 (max b2 b3), by omega, by omega, by omega⟩
  have hf : (env Arith.xr enc fuel id id).Fair := ⟨fun _ => .refl _, fun _ => .refl _⟩
  obtain ⟨h0, hr0⟩ : ∃ h0, initializeModels (env Arith.xr enc fuel id id) [.bigram m] cfg = .ok (some h0) :=
    ⟨_, by rw [initialize_eq hf, if_neg (by simp [cfg])]⟩
  have hreach : Server.Reach (env Arith.xr enc fuel id id) [.bigram m] cfg [] h0 := ⟨h0, hr0, rfl⟩
  have hpos := (hreach.good hf).inv.pos
  obtain ⟨rep, h1, e1, _⟩ := hb3 _ f3 _ _ hf cfg [] h0 (by simp [cfg]) hreach 0 (by decide) (by decide) (by omega)
    [97, 98, 97] (by decide) 5
  have hreach1 : Server.Reach (env Arith.xr enc fuel id id) [.bigram m] cfg reqs h1 :=
    ⟨h0, hr0, by simp only [reqs, Server.serveAll, Server.serve, e1, ok_bind]⟩
  obtain ⟨_, T, _, _, hT, hask, _⟩ := hb1 _ f1 _ _ hf cfg reqs h1 (by simp [cfg]) hreach1
  have hT := hT (by intro s cs n hm; simp [reqs] at hm; rw [hm.1]; rfl)
  obtain ⟨t1, t2, t3, t4⟩ := table hu hc
  rw [← hT] at t1 t2 t3 t4
  rw [hu] at hask
  have hw : T.Within [97, 98] := by
    intro a ha b hb
    simp only [List.mem_cons, List.not_mem_nil, or_false] at ha hb
    rcases ha with rfl | rfl <;> rcases hb with rfl | rfl <;> omega
  obtain ⟨rep, h2, e2, _⟩ := (hb2 _ f2 _ _ hf cfg reqs h1 (by simp [cfg]) hreach1).2 [97, 98] 0
  have hr := hask hw [97, 98] 0 (by decide) _ _ e2
  rw [if_neg (by simp)] at hr
  refine ⟨m, fuel, h1, h2, hm, hreach1, ?_, h0, hr0, ?_⟩
  rotate_left
  · obtain ⟨_, T0, _, hc0, hT0, _, hteach, _⟩ := hb1 _ f1 _ _ hf cfg [] h0 (by simp [cfg]) hreach
    have hT0 := hT0 (by simp)
    have hsym : stateSym h0 0 = 0 := by
      rw [initialize_eq hf, if_neg (by simp [cfg])] at hr0
      simp only [Except.ok.injEq, Option.some.injEq] at hr0
      rw [← hr0]; rfl
    have hadd : T0.add m.utf8 (stateSym h0 (toInt32 0)) [97, 98, 97] 5 = T := by
      rw [show toInt32 0 = 0 from rfl, hsym, hT, hT0]; rfl
    have hg := (C77_room hf hreach1 (by decide)).1
    obtain ⟨_, q2, q3⟩ := C77_room hf hreach (by decide)
    have hsp : Spare h0 (toInt32 0).toNat [(97 : Int), 98, 97].length := by
      left
      rw [q3]
      have a : h0.states.length ≤ 1 := q2
      have b : cfgMax (A := Arith.xr) cfg = 100 := by decide
      show h0.states.length + 3 ≤ _
      omega
    have ha := hteach 0 [97, 98, 97] 5 (by decide) (by rw [show toInt32 0 = 0 from rfl]; omega) (by decide) (.inl hsp) _ _ e1 hg
      (by rw [hadd, hu]; exact hw)
    rw [hadd, hu] at ha
    rw [e1, ha]
    have hlast : lastAt h0 0 [97, 98, 97] = 97 := rfl
    have hun : under [97, 98] 97 = 97 := by decide
    have htot : T.total [97, 98] 97 = 12 := by simp [Pairs.total, t1, t2]
    simp only [hlast, Pairs.reply, hun, htot, List.map_cons, List.map_nil, t1, t2]
    congr 4
    · norm_num [Arith.xr, XR.div]
  rw [e2, hr]
  have hlast : lastAt h1 0 [97, 98] = 98 := rfl
  have hun : under [97, 98] 98 = 98 := by decide
  have htot : T.total [97, 98] 98 = 7 := by simp [Pairs.total, t3, t4]
  simp only [hlast, Pairs.reply, hun, htot, List.map_cons, List.map_nil, t3, t4]
  congr 4
  · norm_num [Arith.xr, XR.div]

end Mozolm.System.PairsDemo
