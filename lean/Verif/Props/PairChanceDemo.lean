import Verif.Props.PairChance
import Verif.Props.PairCodeDemo

/-! # C97 and C98 at work -/

namespace Mozolm.System.PairsDemo
open Mozolm.Hub Mozolm.Server

theorem writes : Writes enc [97, 98] := ⟨by decide, by decide⟩

/-- "a" and then "a" again: one of two, and two of three after the first has been counted. -/
theorem drawn {m : Bigram.Model} (h1 : m.utf8 = [97, 98]) (h2 : m.counts = [[1, 1], [1, 1]]) :
    ∃ T', PairsDrawn [97, 98] (tableOf m) 0 [97, 97] (1/3) T' 97 ∧ T'.Within [97, 98] := by
  have a1 : tableOf m 97 97 = 1 := by simp only [tableOf, h1, h2]; decide
  have a2 : tableOf m 97 98 = 1 := by simp only [tableOf, h1, h2]; decide
  have e1 : (tableOf m).share [97, 98] 0 97 = 1/2 := by
    have a3 : under [97, 98] 0 = 97 := by decide
    simp only [Pairs.share, Pairs.total, a3, List.map_cons, List.map_nil, a1, a2, List.sum_cons, List.sum_nil]
    norm_num
  have b1 : (tableOf m).add [97, 98] 0 [97] 1 97 97 = 2 := by simp only [tableOf, Pairs.add, h1, h2]; decide
  have b2 : (tableOf m).add [97, 98] 0 [97] 1 97 98 = 1 := by simp only [tableOf, Pairs.add, h1, h2]; decide
  have e2 : ((tableOf m).add [97, 98] 0 [97] 1).share [97, 98] 97 97 = 2/3 := by
    have a3 : under [97, 98] 97 = 97 := by decide
    simp only [Pairs.share, Pairs.total, a3, List.map_cons, List.map_nil, b1, b2, List.sum_cons, List.sum_nil]
    norm_num
  refine ⟨((tableOf m).add [97, 98] 0 [97] 1).add [97, 98] 97 [97] 1, ?_, ?_⟩
  · have := PairsDrawn.cons (V := [97, 98]) (T := tableOf m) (a := 0) (x := 97) (by decide)
      (.cons (T := (tableOf m).add [97, 98] 0 [97] 1) (a := 97) (x := 97) (by decide) .nil)
    rw [e1, e2] at this
    norm_num at this
    exact this
  · intro a ha b hb
    simp only [List.mem_cons, List.not_mem_nil, or_false] at ha hb
    rcases ha with rfl | rfl <;> rcases hb with rfl | rfl <;>
      (simp only [tableOf, Pairs.add, h1, h2]; decide)

/-- `std::sort` by falling probability exists. -/
noncomputable def falling (l : List (XR × Str)) : List (XR × Str) :=
  open Classical in l.insertionSort fun a b => number b.1 ≤ number a.1

theorem falling_sorts : SortsFalling falling := by
  classical
  intro l
  refine ⟨List.perm_insertionSort _ l, fun hl => ?_⟩
  haveI : Std.Total (fun a b : XR × Str => number b.1 ≤ number a.1) := ⟨fun a b => le_total _ _⟩
  haveI : IsTrans (XR × Str) (fun a b => number b.1 ≤ number a.1) := ⟨fun a b c h1 h2 => h2.trans h1⟩
  have hs := List.pairwise_insertionSort (fun a b : XR × Str => number b.1 ≤ number a.1) l
  refine List.Pairwise.imp_of_mem (fun {a b} ha hb hab hlt => ?_) hs
  obtain ⟨p, hp⟩ := hl a ((List.perm_insertionSort _ l).mem_iff.1 ha)
  obtain ⟨p', hp'⟩ := hl b ((List.perm_insertionSort _ l).mem_iff.1 hb)
  rw [hp, hp'] at hlt hab
  simp only [XR.lt, number] at hlt hab
  exact absurd hab (not_le.2 hlt)

/-- C98 (and with it C97): generation with a fresh server begins with "aa" once in three times, and is exactly "aa" never. -/
example : ∃ (m : Bigram.Model) (fuel : Nat) (h0 : Hub Arith.xr (Component Arith.xr)),
    Bigram.read file .absent = .ok (some m) ∧
    initializeModels (env Arith.xr enc fuel id id) [.bigram m] cfg = .ok (some h0) ∧
    uniforms {u | ∃ g w, Client.randGen (A := Arith.xr) (Client.Env.xr falling dec) (service (env Arith.xr enc fuel id id) dec) 128
      ⟨(h0, fun i => .fin (u i)), []⟩ [] = .ok (g, w) ∧ [97, 97] <+: g.text} = ENNReal.ofReal (1/3) ∧
    uniforms {u | ∃ w, Client.randGen (A := Arith.xr) (Client.Env.xr falling dec) (service (env Arith.xr enc fuel id id) dec) 128
      ⟨(h0, fun i => .fin (u i)), []⟩ [] = .ok (⟨true, [97, 97]⟩, w)} = 0 ∧
    ∃ l w, PairsLikeliest enc [97, 98] (tableOf m) 0 2 l ∧
      Client.oneKbestSample (A := Arith.xr) (Client.Env.xr falling dec) (service (env Arith.xr enc fuel id id) dec)
        ⟨(h0, fun _ => .fin 0), []⟩ 2 [] = .ok (some (l.map fun x => (.fin x.1, x.2)), w) := by
  obtain ⟨m, hm, hu, hc⟩ := read_file
  have hs : ∀ x ∈ [Component.bigram (A := Arith.xr) m], Served enc x := by
    intro x hx
    simp only [List.mem_singleton] at hx
    subst hx
    exact .bigram hm
  obtain ⟨b1, hb1⟩ := C98_generation (encode := enc) (sort := falling) (decode := dec) (models := [.bigram m]) (m0 := m) rfl hs
    falling_sorts rfl (by rw [hu]; exact writes)
  have hf : (env Arith.xr enc b1 id id).Fair := ⟨fun _ => .refl _, fun _ => .refl _⟩
  obtain ⟨h0, hr0⟩ : ∃ h0, initializeModels (env Arith.xr enc b1 id id) [.bigram m] cfg = .ok (some h0) :=
    ⟨_, by rw [initialize_eq hf, if_neg (by simp [cfg])]⟩
  obtain ⟨_, T, _, ht, hall⟩ := hb1 _ (by omega) _ _ hf cfg [] h0 (by simp [cfg]) (by decide) ⟨h0, hr0, rfl⟩
  cases ht
  rw [hu] at hall
  obtain ⟨hgen, hkb⟩ := hall [] (by decide) []
  obtain ⟨q, T', a', hd, hdone⟩ := hgen [97, 97] (by decide) (by decide) (by decide) 128 (by omega)
  obtain ⟨T'', hd', hw⟩ := drawn hu hc
  obtain ⟨rfl, rfl, rfl⟩ := C98_unique hd hd'
  obtain ⟨c1, c2⟩ := hdone hw
  have hT : (tableOf m).Within [97, 98] := within_of_le hd.grows hw
  obtain ⟨l, w, l1, l2⟩ := (hkb hT (fun _ => .fin 0) 2).1 (by decide)
  refine ⟨m, b1, h0, hm, hr0, c1, ?_, l, w, l1, l2⟩
  have := c2 (by decide) 0 (.inr ⟨by decide, rfl⟩)
  rw [mul_zero, ENNReal.ofReal_zero] at this
  exact this

end Mozolm.System.PairsDemo
