import Verif.Props.Example
import Verif.Props.SystemPairsDemo

/-! # C105: the example against two servers -/

namespace Mozolm.System.ExampleDemo
open Mozolm.Hub Mozolm.Server

/-- the default configuration -/
def cfg : HubConfig XR := { mixture := .none, weights := [], bayesianHistoryLength := 0, maxStates := 0 }

/-- The example against a server just started, with a bigram model. -/
theorem fresh {m : Bigram.Model} {v c : Bigram.FileArg} (hm : Bigram.read v c = .ok (some m)) (hw : (tableOf m).Within m.utf8) :
    ∃ (fuel : Nat) (h h' : Hub Arith.xr (Component Arith.xr)) (lines : List ((XR × Str) × Bool)),
      initializeModels (env Arith.xr PairsDemo.enc fuel id id) [.bigram m] cfg = .ok (some h) ∧ lines.length = min 5 m.utf8.length ∧
      runExample (env Arith.xr PairsDemo.enc fuel id id) h = .ok (if 5 ≤ m.utf8.length then .returns lines else .outOfBounds lines, h') := by
  have hs : ∀ x ∈ [Component.bigram (A := Arith.xr) m], Served PairsDemo.enc x := by
    intro x hx
    rw [List.mem_singleton.1 hx]
    exact .bigram hm
  obtain ⟨b, hb⟩ := C105_bigram hs rfl
  have hf : (env Arith.xr PairsDemo.enc b id id).Fair := ⟨fun _ => .refl _, fun _ => .refl _⟩
  obtain ⟨h0, hr0⟩ : ∃ h0, initializeModels (env Arith.xr PairsDemo.enc b id id) [.bigram m] cfg = .ok (some h0) :=
    ⟨_, by rw [initialize_eq hf, if_neg (by simp [cfg])]⟩
  obtain ⟨h1, T, k1, k2, k3⟩ := hb b (Nat.le_refl _) id id hf cfg [] h0 (by simp [cfg]) ⟨h0, hr0, rfl⟩
  cases k2
  obtain ⟨cands, lines, h', _, _, j1, j2⟩ := k3 hw
  exact ⟨b, h0, h', lines, hr0, j1, j2⟩

set_option maxRecDepth 100000 in
/-- C105: with the built-in vocabulary five candidates are logged. -/
example : ∃ (m : Bigram.Model) (fuel : Nat) (h h' : Hub Arith.xr (Component Arith.xr)) (lines : List ((XR × Str) × Bool)),
    Bigram.read .absent .absent = .ok (some m) ∧
    initializeModels (env Arith.xr PairsDemo.enc fuel id id) [.bigram m] cfg = .ok (some h) ∧ lines.length = 5 ∧
    runExample (env Arith.xr PairsDemo.enc fuel id id) h = .ok (.returns lines, h') := by
  obtain ⟨m, hm, hu, hc⟩ : ∃ m, Bigram.read .absent .absent = .ok (some m) ∧ m.utf8 = Bigram.defaultVocab ∧
      m.counts = List.replicate 28 (List.replicate 28 1) := ⟨_, rfl, rfl, rfl⟩
  obtain ⟨fuel, h, h', lines, k1, k2, k3⟩ := fresh hm (by
    intro a ha b hb
    unfold tableOf
    split
    · next i j _ _ =>
      rw [hc, List.getElem?_replicate]
      by_cases hi : i < 28
      · rw [if_pos hi, Option.bind_some, List.getElem?_replicate]
        by_cases hj : j < 28
        · rw [if_pos hj]; decide
        · rw [if_neg hj]; decide
      · rw [if_neg hi]; rw [Option.bind_none]; decide
    · decide)
  rw [hu] at k2 k3
  exact ⟨m, fuel, h, h', lines, hm, k1, k2, k3⟩

/-- C105: with a vocabulary of two characters the example logs both and ends with an exception. -/
example : ∃ (m : Bigram.Model) (fuel : Nat) (h h' : Hub Arith.xr (Component Arith.xr)) (lines : List ((XR × Str) × Bool)),
    Bigram.read PairsDemo.file .absent = .ok (some m) ∧
    initializeModels (env Arith.xr PairsDemo.enc fuel id id) [.bigram m] cfg = .ok (some h) ∧ lines.length = 2 ∧
    runExample (env Arith.xr PairsDemo.enc fuel id id) h = .ok (.outOfBounds lines, h') := by
  obtain ⟨m, hm, hu, hc⟩ := PairsDemo.read_file
  obtain ⟨fuel, h, h', lines, k1, k2, k3⟩ := fresh hm (by
    rw [hu]
    simp only [Pairs.Within, tableOf, hu, hc]
    decide)
  rw [hu] at k2 k3
  exact ⟨m, fuel, h, h', lines, hm, k1, k2, k3⟩

end Mozolm.System.ExampleDemo
