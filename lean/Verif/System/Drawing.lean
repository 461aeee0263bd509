import Verif.System.ChanceSpec
import Verif.System.Listing

/-!
# What the client draws from a reply of a server with a PPM component that learns
-/

namespace Mozolm.System
open Mozolm.Hub Mozolm.Server Mozolm.Client
open Mozolm.Ppm (Memory)
variable {o : Ppm.Options XR} {symbols : SymbolTable} {V : Nat} {M : Memory} {c : List Int} {r : LMScores XR}
  {sort : List (XR × Str) → List (XR × Str)} {decode : Str → List Int}

/-- The number, if it is one. -/
noncomputable def number : XR → ℝ
  | .fin x => x
  | _ => 0

/-- The symbol chosen with a random number. -/
noncomputable def picked (scores : List (XR × Str)) (t : XR) : Option Str := (scores[randomPosition Arith.xr (scores.map Prod.fst) t]?).map Prod.snd

theorem randomLoop_mono {t t' : ℝ} (h : t ≤ t') (ps : List ℝ) : ∀ (tot : ℝ) (i : Nat),
    randomLoop Arith.xr (.fin t) (.fin tot) i (ps.map XR.fin) ≤ randomLoop Arith.xr (.fin t') (.fin tot) i (ps.map XR.fin) := by
  have hge : ∀ (ps : List ℝ) (t tot : ℝ) (i : Nat), i ≤ randomLoop Arith.xr (.fin t) (.fin tot) i (ps.map XR.fin) := by
    intro ps
    induction ps with
    | nil => intro t tot i; exact Nat.le_refl _
    | cons p ps ih =>
      intro t tot i
      rw [List.map_cons, randomLoop, dlt_xr]
      split
      · exact Nat.le_trans (Nat.le_succ _) (ih t (tot + p) (i + 1))
      · exact Nat.le_refl _
  induction ps with
  | nil => intro tot i; exact Nat.le_refl _
  | cons p ps ih =>
    intro tot i
    rw [List.map_cons, randomLoop, randomLoop, dlt_xr, dlt_xr]
    by_cases h1 : tot < t
    · rw [if_pos (by simpa using h1), if_pos (by simpa using lt_of_lt_of_le h1 h)]
      exact ih (tot + p) (i + 1)
    · rw [if_neg (by simpa using h1)]
      split
      · exact Nat.le_trans (Nat.le_succ _) (hge ps t' (tot + p) (i + 1))
      · exact Nat.le_refl _

theorem randomPosition_measurable (ps : List ℝ) (i : Nat) : MeasurableSet {t : ℝ | randomPosition Arith.xr (ps.map XR.fin) (.fin t) = i} := by
  have hm : Monotone fun t : ℝ => randomPosition Arith.xr (ps.map XR.fin) (.fin t) := by
    intro t t' h
    have := randomLoop_mono h ps 0 0
    have h0 : (Arith.xr.ofInt 0 : XR) = .fin 0 := by simp [Arith.xr]
    change randomPosition Arith.xr (ps.map XR.fin) (.fin t) ≤ randomPosition Arith.xr (ps.map XR.fin) (.fin t')
    unfold randomPosition
    rw [h0]
    simp only
    split <;> split <;> omega
  have hc : Set.OrdConnected {t : ℝ | randomPosition Arith.xr (ps.map XR.fin) (.fin t) = i} := by
    refine ⟨fun a ha b hb x hx => ?_⟩
    have h1 := hm hx.1
    have h2 := hm hx.2
    simp only [Set.mem_ofPred_eq] at ha hb ⊢
    simp only at h1 h2
    omega
  exact hc.measurableSet

/-- What the client draws from the listing: always one of the symbols told, each with the probability told. -/
theorem Tells.draw (hd : Ppm.Dense symbols V) (he : ∀ e ∈ symbols, 0 < e.1 → e.2 ≠ []) (hE : Rearranges (Env.xr sort decode))
    (h : Tells o symbols V M c r) :
    (∀ t : ℝ, ∃ y sym, y ≤ V ∧ ([] :: symbols.tail.map Prod.snd : List Str)[y]? = some sym ∧ picked (sort (r.probs.zip r.symbols)) (.fin t) = some sym) ∧
    ∀ (y : Nat) (sym : Str), y ≤ V → ([] :: symbols.tail.map Prod.snd : List Str)[y]? = some sym →
      ∃ p : ℝ, 0 < p ∧ M.Prob (Ppm.effective o.alpha (1/2)) (Ppm.effective o.beta (3/4)) V y c p ∧
        MeasurableSet {t : ℝ | picked (sort (r.probs.zip r.symbols)) (.fin t) = some sym} ∧
        uniform {t : ℝ | picked (sort (r.probs.zip r.symbols)) (.fin t) = some sym} = ENNReal.ofReal p := by
  obtain ⟨p, hp, hsum, h1, h2, _⟩ := h
  have hperm : (sort (r.probs.zip r.symbols)).Perm (r.probs.zip r.symbols) := hE _
  generalize sort (r.probs.zip r.symbols) = scores at hperm ⊢
  have hnd := told_nodup hd he
  have hlen : symbols.length = V + 1 := by simpa using congrArg List.length hd.labels
  rw [h1, h2] at hperm
  generalize hsy : ([] :: symbols.tail.map Prod.snd : List Str) = syms at hperm hnd ⊢
  have hl : syms.length = V + 1 := by rw [← hsy]; simp [hlen]
  have hfst : (scores.map Prod.fst).Perm ((List.range (V + 1)).map fun y => XR.fin (p y)) := by
    have := hperm.map Prod.fst
    rwa [List.map_fst_zip (by simp [hl])] at this
  have hsnd : (scores.map Prod.snd).Nodup := by
    refine (hperm.map Prod.snd).nodup_iff.2 ?_
    rw [List.map_snd_zip (by simp [hl])]; exact hnd
  have hfin : ∀ x ∈ scores, ∃ z : ℝ, x.1 = .fin z := by
    intro x hx
    have := hfst.mem_iff.1 (List.mem_map_of_mem hx)
    obtain ⟨y, _, hy⟩ := List.mem_map.1 this
    exact ⟨p y, hy.symm⟩
  obtain ⟨ps, hps⟩ : ∃ ps : List ℝ, scores.map Prod.fst = ps.map XR.fin := by
    refine ⟨scores.map fun x => number x.1, ?_⟩
    rw [List.map_map]
    refine List.map_congr_left fun x hx => ?_
    obtain ⟨z, hz⟩ := hfin x hx
    simp [Function.comp, hz, number]
  have hpsp : ps.Perm ((List.range (V + 1)).map p) := by
    have : (ps.map XR.fin).Perm (((List.range (V + 1)).map p).map XR.fin) := by
      rw [← hps, List.map_map]; exact hfst
    have h' := this.map number
    rw [List.map_map, List.map_map, show number ∘ XR.fin = id from rfl] at h'
    simpa using h'
  have hpos : ∀ q ∈ ps, 0 ≤ q := by
    intro q hq
    obtain ⟨y, hy, rfl⟩ := List.mem_map.1 (hpsp.mem_iff.1 hq)
    exact (hp y (by simpa [Nat.lt_succ_iff] using hy)).1.le
  have hone : ps.sum = 1 := by
    rw [hpsp.sum_eq, ← hsum, Finset.sum_range, ← List.sum_ofFn, List.ofFn_eq_map]
    congr 1
    rw [← List.map_coe_finRange_eq_range, List.map_map]
    rfl
  have hslen : scores.length = V + 1 := by simpa [hl] using hperm.length_eq
  have hplen : ps.length = V + 1 := by simpa using hpsp.length_eq
  have hne : scores.map Prod.fst ≠ [] := by
    intro e
    have := congrArg List.length e
    simp [hslen] at this
  have hget : ∀ (i : Nat) (x : XR × Str), scores[i]? = some x → ∃ y, y ≤ V ∧ syms[y]? = some x.2 ∧ x.1 = .fin (p y) := by
    intro i x hx
    have := hperm.mem_iff.1 (List.mem_of_getElem? hx)
    obtain ⟨y, hy⟩ := List.mem_iff_getElem?.1 this
    rw [List.getElem?_zip_eq_some] at hy
    obtain ⟨a1, a2⟩ := hy
    have hyl : y < V + 1 := by have := lt_of_getElem?_eq_some a2; omega
    refine ⟨y, by omega, a2, ?_⟩
    rw [List.getElem?_map, List.getElem?_range hyl] at a1
    simpa using a1.symm
  refine ⟨fun t => ?_, fun y sym hy hsym => ?_⟩
  · have hlt := (C41_first_to_reach (A := Arith.xr) (scores.map Prod.fst) (.fin t) hne).1
    rw [List.length_map] at hlt
    obtain ⟨x, hx⟩ := exists_getElem?_of_lt hlt
    obtain ⟨y, y1, y2, _⟩ := hget _ _ hx
    refine ⟨y, x.2, y1, y2, ?_⟩
    unfold picked
    rw [hx]; rfl
  · have hm : (XR.fin (p y), sym) ∈ scores := by
      refine hperm.mem_iff.2 (List.mem_iff_getElem?.2 ⟨y, ?_⟩)
      rw [List.getElem?_zip_eq_some]
      have hylt : y < V + 1 := by omega
      simp [hsym, hylt]
    obtain ⟨i, hi⟩ := List.mem_iff_getElem?.1 hm
    have hil := lt_of_getElem?_eq_some hi
    have hset : {t : ℝ | picked scores (.fin t) = some sym} = {t : ℝ | randomPosition Arith.xr (ps.map XR.fin) (.fin t) = i} := by
      ext t
      simp only [Set.mem_ofPred_eq, picked, hps]
      constructor
      · intro h
        obtain ⟨x, hx, hx2⟩ := Option.map_eq_some_iff.1 h
        refine (List.getElem?_inj (l := scores.map Prod.snd) (by rw [List.length_map]; exact lt_of_getElem?_eq_some hx) hsnd).1 ?_
        rw [List.getElem?_map, List.getElem?_map, hi, hx, Option.map_some, Option.map_some, hx2]
      · intro h
        rw [h, hi]; rfl
    refine ⟨p y, (hp y hy).1, (hp y hy).2, ?_, ?_⟩
    · rw [hset]; exact randomPosition_measurable ps i
    · have hip : i < ps.length := by omega
      rw [uniform, MeasureTheory.Measure.restrict_apply (by rw [hset]; exact randomPosition_measurable ps i), hset, Set.inter_comm]
      have := C41_proportional ps hpos hone i hip
      rw [show Set.Ico (0 : ℝ) 1 ∩ {t : ℝ | randomPosition Arith.xr (ps.map XR.fin) (.fin t) = i} =
        {t : ℝ | t ∈ Set.Ico 0 1 ∧ randomPosition Arith.xr (ps.map XR.fin) (.fin t) = i} from rfl, this]
      congr 1
      have h3 : (scores.map Prod.fst)[i]? = some (.fin (p y)) := by rw [List.getElem?_map, hi]; rfl
      rw [hps, List.getElem?_map, List.getElem?_eq_getElem hip] at h3
      simpa using h3

end Mozolm.System
