import Verif.System.CodeSpec
import Verif.System.LearningServer

/-!
# What the client finds in a reply of a server with a PPM component that learns
-/

namespace Mozolm.System
open Mozolm.Hub Mozolm.Server Mozolm.Client
open Mozolm.Ppm (Memory)
variable {o : Ppm.Options XR} {symbols : SymbolTable} {V : Nat} {M : Memory} {c : List Int} {r : LMScores XR}
  {sort : List (XR × Str) → List (XR × Str)} {decode : Str → List Int}

/-- The listing is usable: one probability for each symbol, and at least one. -/
theorem Tells.top (hd : Ppm.Dense symbols V) (h : Tells o symbols V M c r) :
    Scores.getTopHypotheses sort r (-1) = .ok (sort (r.probs.zip r.symbols)) := by
  obtain ⟨p, _, _, h1, h2, _⟩ := h
  have hlen : symbols.length = V + 1 := by simpa using congrArg List.length hd.labels
  have : r.probs.length = V + 1 := by rw [h2]; simp
  have h3 : r.symbols.length = V + 1 := by rw [h1]; simp [hlen]
  simp only [Scores.getTopHypotheses]
  rw [if_neg (by omega), if_neg (by omega), if_neg (by omega), if_neg (by omega)]

/-- The symbols told are different. -/
theorem told_nodup (hd : Ppm.Dense symbols V) (he : ∀ e ∈ symbols, 0 < e.1 → e.2 ≠ []) :
    ([] :: symbols.tail.map Prod.snd : List Str).Nodup := by
  have hl := hd.labels
  have hn := hd.nodup
  cases symbols with
  | nil => simp
  | cons e t =>
    simp only [List.map_cons, List.nodup_cons] at hn
    simp only [List.tail_cons, List.nodup_cons]
    refine ⟨fun hm => ?_, hn.2⟩
    obtain ⟨x, x1, x2⟩ := List.mem_map.1 hm
    refine he x (by simp [x1]) ?_ x2
    obtain ⟨i, i1⟩ := List.mem_iff_getElem?.1 x1
    have := congrArg (fun l => l[i + 1]?) hl
    simp only [List.map_cons, List.getElem?_cons_succ, List.getElem?_map, i1, Option.map_some] at this
    cases hr : (List.range (V + 1))[i + 1]? with
    | none => rw [hr] at this; cases this
    | some z =>
      rw [hr] at this
      have hz := List.getElem?_eq_some_iff.1 hr
      obtain ⟨h1, h2⟩ := hz
      simp at h2
      simp at this
      omega

/-- What is told of the symbol at place `y`. -/
theorem bits_at {scores : List (XR × Str)} {p : ℕ → ℝ} {syms : List Str} (hn : syms.Nodup) {n : Nat} (hlen : syms.length ≤ n)
    (hp : scores.Perm ((((List.range n).map fun y => XR.fin (p y))).zip syms)) {y : Nat} (hy : y < n) {sym : Str} (hs : syms[y]? = some sym)
    (h0 : 0 ≤ p y) :
    (findStringIndex (A := Arith.xr) scores sym).isNone = false ∧
    calculateBits (Env.xr sort decode) (findStringIndex (A := Arith.xr) scores sym) scores = .ok (.fin (charBits (p y))) := by
  have hm : (XR.fin (p y), sym) ∈ scores := by
    refine hp.mem_iff.2 (List.mem_iff_getElem?.2 ⟨y, ?_⟩)
    rw [List.getElem?_zip_eq_some]
    simp [hs, hy]
  obtain ⟨before, after, rfl⟩ := List.append_of_mem hm
  have hnd : ((before ++ (XR.fin (p y), sym) :: after).map Prod.snd).Nodup := by
    have h1 := (hp.map Prod.snd).nodup_iff.2
    refine h1 ?_
    rw [List.map_snd_zip (by simpa using hlen)]
    exact hn
  have hb : ∀ x ∈ before, x.2 ≠ sym := by
    intro x hx e
    rw [List.map_append, List.nodup_append] at hnd
    exact hnd.2.2 x.2 (List.mem_map_of_mem hx) sym (by simp) e
  refine ⟨?_, ?_⟩
  · rw [Option.isNone_eq_false_iff, findStringIndex, List.findIdx?_isSome]
    simp
  · rw [(C50_bits_exact sort decode _ sym).1 before after (p y) rfl hb h0, charBits, Real.logb, neg_div]

/-- Of a symbol that is not listed. -/
theorem bits_none {scores : List (XR × Str)} {sym : Str} (h : ∀ x ∈ scores, x.2 ≠ sym) :
    (findStringIndex (A := Arith.xr) scores sym).isNone = true ∧
    calculateBits (Env.xr sort decode) (findStringIndex (A := Arith.xr) scores sym) scores = .ok (.fin (charBits 0)) := by
  refine ⟨?_, ?_⟩
  · rw [findStringIndex, List.findIdx?_eq_none_iff.2 (by simpa using h)]; rfl
  · rw [(C50_bits_exact sort decode _ sym).2 h, charBits, Real.logb, maxBits]; simp [neg_div]

theorem dense_get (hd : Ppm.Dense symbols V) {i : Nat} {e : Int × Str} (h : symbols[i]? = some e) : e.1 = i ∧ i ≤ V := by
  have := congrArg (fun l => l[i]?) hd.labels
  simp only [List.getElem?_map, h, Option.map_some] at this
  cases hr : (List.range (V + 1))[i]? with
  | none => rw [hr] at this; cases this
  | some z =>
    rw [hr] at this
    obtain ⟨h1, h2⟩ := List.getElem?_eq_some_iff.1 hr
    simp at h1 h2 this
    omega

/-- A known character is told at the place of its label. -/
theorem told_known (hd : Ppm.Dense symbols V) {encode : Int → Str} {ch : Int} (h : 0 < (Ppm.alphabet symbols encode).typed ch) :
    ((Ppm.alphabet symbols encode).typed ch).toNat ≤ V ∧
    ([] :: symbols.tail.map Prod.snd : List Str)[((Ppm.alphabet symbols encode).typed ch).toNat]? = some (encode ch) := by
  simp only [Ppm.alphabet, Ppm.typedLabel] at h ⊢
  split at h
  · next hp =>
    rw [if_pos hp]
    unfold SymbolTable.findLabel at hp ⊢
    split at hp
    · next e he =>
      have hm := List.mem_of_find?_eq_some he
      have he2 : e.2 = encode ch := by simpa using List.find?_some he
      obtain ⟨i, hi⟩ := List.mem_iff_getElem?.1 hm
      obtain ⟨h1, h2⟩ := dense_get hd hi
      simp only [h1] at hp ⊢
      refine ⟨by omega, ?_⟩
      cases i with
      | zero => omega
      | succ i =>
        have : ((i + 1 : Nat) : Int).toNat = i + 1 := by omega
        rw [this, List.getElem?_cons_succ, List.getElem?_map, List.getElem?_tail, hi, ← he2]
        rfl
    · omega
  · omega

/-- An unknown one is not told. -/
theorem told_unknown (hd : Ppm.Dense symbols V) {encode : Int → Str} {ch : Int} (h : (Ppm.alphabet symbols encode).typed ch < 0)
    (he : encode ch ≠ []) : encode ch ∉ ([] :: symbols.tail.map Prod.snd : List Str) := by
  intro hm
  rcases List.mem_cons.1 hm with hm | hm
  · exact he hm
  obtain ⟨x, x1, x2⟩ := List.mem_map.1 hm
  obtain ⟨i, hi⟩ := List.mem_iff_getElem?.1 x1
  rw [List.getElem?_tail] at hi
  obtain ⟨h1, h2⟩ := dense_get hd hi
  simp only [Ppm.alphabet, Ppm.typedLabel] at h
  split at h
  · omega
  · next hp =>
    apply hp
    unfold SymbolTable.findLabel
    cases hf : symbols.find? (fun e => e.2 == encode ch) with
    | none => exact absurd x2 (by simpa using List.find?_eq_none.1 hf x (List.mem_of_getElem? hi))
    | some e =>
      have hm' := List.mem_of_find?_eq_some hf
      have he2 : e.2 = encode ch := by simpa using List.find?_some hf
      obtain ⟨k, hk⟩ := List.mem_iff_getElem?.1 hm'
      obtain ⟨k1, k2⟩ := dense_get hd hk
      have : k = i + 1 := by
        have hk' : (symbols.map Prod.snd)[k]? = some (encode ch) := by rw [List.getElem?_map, hk, ← he2]; rfl
        have hi' : (symbols.map Prod.snd)[i + 1]? = some (encode ch) := by rw [List.getElem?_map, hi, ← x2]; rfl
        exact (List.getElem?_inj (List.getElem?_eq_some_iff.1 hk').1 hd.nodup).1 (hk'.trans hi'.symm)
      simp only [k1]; omega

/-- What the client finds in the listing for the end of the string, a known and an unknown character. -/
theorem Tells.bits (hd : Ppm.Dense symbols V) (he : ∀ e ∈ symbols, 0 < e.1 → e.2 ≠ []) (hE : Rearranges (Env.xr sort decode))
    (h : Tells o symbols V M c r) {encode : Int → Str} :
    (∃ p, M.Prob (Ppm.effective o.alpha (1/2)) (Ppm.effective o.beta (3/4)) V 0 c p ∧
      (findStringIndex (A := Arith.xr) (sort (r.probs.zip r.symbols)) []).isNone = false ∧
      calculateBits (Env.xr sort decode) (findStringIndex (A := Arith.xr) (sort (r.probs.zip r.symbols)) []) (sort (r.probs.zip r.symbols)) =
        .ok (.fin (charBits p))) ∧
    ∀ ch, encode ch ≠ [] →
      (0 < (Ppm.alphabet symbols encode).typed ch →
        ∃ p, M.Prob (Ppm.effective o.alpha (1/2)) (Ppm.effective o.beta (3/4)) V ((Ppm.alphabet symbols encode).typed ch).toNat c p ∧
        (findStringIndex (A := Arith.xr) (sort (r.probs.zip r.symbols)) (encode ch)).isNone = false ∧
        calculateBits (Env.xr sort decode) (findStringIndex (A := Arith.xr) (sort (r.probs.zip r.symbols)) (encode ch)) (sort (r.probs.zip r.symbols)) =
          .ok (.fin (charBits p))) ∧
      ((Ppm.alphabet symbols encode).typed ch < 0 →
        (findStringIndex (A := Arith.xr) (sort (r.probs.zip r.symbols)) (encode ch)).isNone = true ∧
        calculateBits (Env.xr sort decode) (findStringIndex (A := Arith.xr) (sort (r.probs.zip r.symbols)) (encode ch)) (sort (r.probs.zip r.symbols)) =
          .ok (.fin (charBits 0))) := by
  obtain ⟨p, hp, _, h1, h2, _⟩ := h
  have hperm : (sort (r.probs.zip r.symbols)).Perm (r.probs.zip r.symbols) := hE _
  generalize sort (r.probs.zip r.symbols) = scores at hperm ⊢
  have hnd := told_nodup hd he
  have hlen : symbols.length = V + 1 := by simpa using congrArg List.length hd.labels
  have hl : ([] :: symbols.tail.map Prod.snd : List Str).length ≤ V + 1 := by simp [hlen]
  rw [h1, h2] at hperm
  refine ⟨⟨p 0, (hp 0 (by omega)).2, bits_at hnd hl hperm (y := 0) (by omega) rfl (hp 0 (by omega)).1.le⟩, fun ch hch => ⟨fun ht => ?_, fun ht => ?_⟩⟩
  · obtain ⟨k1, k2⟩ := told_known hd ht
    exact ⟨_, (hp _ k1).2, bits_at hnd hl hperm (by omega) k2 (hp _ k1).1.le⟩
  · have hno := told_unknown hd ht hch
    refine bits_none fun x hx => ?_
    rintro e
    have := hperm.mem_iff.1 hx
    rw [← e] at hno
    exact hno (List.of_mem_zip (a := x.1) (b := x.2) this).2

end Mozolm.System
