import Verif.Props.PairCode
import Verif.Props.SystemPairsDemo

/-! # C96 at work -/

namespace Mozolm.System.PairsDemo
open Mozolm.Hub Mozolm.Server

/-- the one-byte encoding undone -/
def dec (s : Str) : List Int := s.map fun b => (b : Int)

/-- The line "b", an unknown character, "a": "b" is one of two, "a" one of three after it has been counted. -/
theorem coded {m : Bigram.Model} (h1 : m.utf8 = [97, 98]) (h2 : m.counts = [[1, 1], [1, 1]]) :
    ∃ T', PairsCodedFile enc [97, 98] (tableOf m) [[98, 99, 97]] 2 (charBits (1/2) + (charBits 0 + (charBits (1/3) + charBits 0))) T' ∧
      T'.Within [97, 98] := by
  have e1 : (tableOf m).share [97, 98] 0 98 = 1/2 := by
    have a1 : tableOf m 97 97 = 1 := by simp only [tableOf, h1, h2]; decide
    have a2 : tableOf m 97 98 = 1 := by simp only [tableOf, h1, h2]; decide
    have a3 : under [97, 98] 0 = 97 := by decide
    simp only [Pairs.share, Pairs.total, a3, List.map_cons, List.map_nil, a1, a2, List.sum_cons, List.sum_nil]
    norm_num
  have b1 : (tableOf m).add [97, 98] 0 [98] 1 97 97 = 1 := by simp only [tableOf, Pairs.add, h1, h2]; decide
  have b2 : (tableOf m).add [97, 98] 0 [98] 1 97 98 = 2 := by simp only [tableOf, Pairs.add, h1, h2]; decide
  have e2 : ((tableOf m).add [97, 98] 0 [98] 1).share [97, 98] 99 97 = 1/3 := by
    have a3 : under [97, 98] 99 = 97 := by decide
    simp only [Pairs.share, Pairs.total, a3, List.map_cons, List.map_nil, b1, b2, List.sum_cons, List.sum_nil]
    norm_num
  refine ⟨((tableOf m).add [97, 98] 0 [98] 1).add [97, 98] 99 [97] 1, ?_, ?_⟩
  · have h4 : PairsCoded enc [97, 98] (((tableOf m).add [97, 98] 0 [98] 1).add [97, 98] 99 [97] 1) 97 [] 1 (charBits 0) _ := .cut (by decide)
    have h3 := PairsCoded.known (a := 99) (T := (tableOf m).add [97, 98] 0 [98] 1) (c := 97) (by decide) h4
    have h2 := PairsCoded.unknown (a := 98) (c := 99) (by decide) h3
    have h1 := PairsCoded.known (a := 0) (T := tableOf m) (c := 98) (by decide) h2
    rw [e1, e2] at h1
    have := PairsCodedFile.cons h1 .nil
    simpa using this
  · intro a ha b hb
    simp only [List.mem_cons, List.not_mem_nil, or_false] at ha hb
    rcases ha with rfl | rfl <;> rcases hb with rfl | rfl <;>
      (simp only [tableOf, Pairs.add, h1, h2]; decide)

/-- C96: the client asks a fresh server for the bits of that line: four characters with the end of the line, of which two
are unknown, the end among them, because "" is not how a character of the vocabulary is written. -/
example : ∃ (m : Bigram.Model) (fuel : Nat) (h0 : Hub Arith.xr (Component Arith.xr))
    (w : Client.World XR (Hub Arith.xr (Component Arith.xr) × (Nat → XR))),
    Bigram.read file .absent = .ok (some m) ∧
    initializeModels (env Arith.xr enc fuel id id) [.bigram m] cfg = .ok (some h0) ∧
    Client.calcBitsPerCharacter (Client.Env.xr id dec) (service (env Arith.xr enc fuel id id) dec)
      ⟨(h0, fun _ => .fin 0), []⟩ [[[98], [99], [97]]] =
        .ok (some ⟨4, 2, .fin ((charBits (1/2) + (charBits 0 + (charBits (1/3) + charBits 0))) / 4)⟩, w) := by
  obtain ⟨m, hm, hu, hc⟩ := read_file
  have hs : ∀ x ∈ [Component.bigram (A := Arith.xr) m], Served enc x := by
    intro x hx
    simp only [List.mem_singleton] at hx
    subst hx
    exact .bigram hm
  have hinj : ∀ a ∈ [(97 : Int), 98], ∀ b ∈ [(97 : Int), 98], enc a = enc b → a = b := by decide
  obtain ⟨b1, hb1⟩ := C96_bits (encode := enc) (sort := id) (decode := dec) (models := [.bigram m]) (m0 := m) rfl hs
    (fun _ => .refl _) rfl (by rw [hu]; exact hinj)
  have hf : (env Arith.xr enc b1 id id).Fair := ⟨fun _ => .refl _, fun _ => .refl _⟩
  obtain ⟨h0, hr0⟩ : ∃ h0, initializeModels (env Arith.xr enc b1 id id) [.bigram m] cfg = .ok (some h0) :=
    ⟨_, by rw [initialize_eq hf, if_neg (by simp [cfg])]⟩
  obtain ⟨_, T, _, ht, _, hall⟩ := hb1 _ (by omega) _ _ hf cfg [] h0 (by simp [cfg]) (by decide) ⟨h0, hr0, rfl⟩
  cases ht
  rw [hu] at hall
  obtain ⟨res, w, k, b, T', e, hroom, hcode, hdone⟩ := hall [[98, 99, 97]] (by simp) (by decide) (fun _ => .fin 0) []
  obtain ⟨T'', hcode', hw⟩ := coded hu hc
  obtain ⟨rfl, rfl, rfl⟩ := C96_unique hinj hcode hcode'
  obtain ⟨k2, _⟩ := hdone (hroom (by decide)) hw
  refine ⟨m, b1, h0, w, hm, hr0, ?_⟩
  rw [show ([[98, 99, 97]] : List (List Int)).map (fun line => line.map enc) = [[[98], [99], [97]]] from rfl, k2] at e
  rw [e]
  norm_num

end Mozolm.System.PairsDemo
