import Verif.Ppm.TrainEncode
import Verif.Ppm.Totals

/-! # The automaton that training from text returns -/

namespace Mozolm.Ppm
open XR Classical

/-- the total on the backoff arc after training -/
noncomputable def trainedTotal (order : Nat) (ws : List (List Int)) (c : List Int) (st : FState XR) : XR :=
  if (Longer order ws c).Nonempty then
    costOf (((st.arcs.filter fun a => decide (0 < a.label)).map fun a => (trainedCount order ws c a.label : ℝ)).sum +
      (trainedCount order ws c 0 : ℝ))
  else costOf (occurrencesAll ws c)

/-- a state after training, from the counter's -/
noncomputable def trainedState (order : Nat) (ws : List (List Int)) (c : List Int) (st : FState XR) : FState XR :=
  { final := costOf (trainedCount order ws c 0)
    arcs := st.arcs.map fun a =>
      { a with weight := if 0 < a.label then costOf (trainedCount order ws c a.label) else trainedTotal order ws c st } }

/-- a state after the computation of exclusions, in terms of the text -/
noncomputable def exclText (order : Nat) (ws : List (List Int)) (c : List Int) (st : FState XR) : FState XR :=
  { final := costOf ({d ∈ Longer order ws c | 0 < occurrences ws d 0}.ncard : ℕ)
    arcs := st.arcs.map fun a =>
      { a with weight := if 0 < a.label then costOf ({d ∈ Longer order ws c | 0 < occurrences ws d a.label}.ncard : ℕ)
        else costOf (((st.arcs.filter fun a => decide (0 < a.label)).map fun a =>
          (({d ∈ Longer order ws c | 0 < occurrences ws d a.label}.ncard : ℕ) : ℝ)).sum +
          (({d ∈ Longer order ws c | 0 < occurrences ws d 0}.ncard : ℕ) : ℝ)) } }

section
variable {order : Nat} {ws ctxs : List (List Int)} {f : Fst XR}

theorem trainedCount_longer {c : List Int} (hc : c ≠ []) (hl : (Longer order ws c).Nonempty) (y : Int) :
    trainedCount order ws c y = {d ∈ Longer order ws c | 0 < occurrences ws d y}.ncard := by
  unfold trainedCount
  rw [if_neg hc, if_pos hl]

theorem trainedCount_longest {c : List Int} (hc : c ≠ []) (hl : ¬ (Longer order ws c).Nonempty) (y : Int) :
    trainedCount order ws c y = occurrences ws c y := by
  unfold trainedCount
  rw [if_neg hc, if_neg hl]

theorem trainedCount_nil (y : Int) :
    trainedCount order ws [] y = {d ∈ Longer order ws [] | 0 < occurrences ws d y}.ncard + 1 := by
  unfold trainedCount
  rw [if_pos rfl]

/-- no end of line after a context: none after a longer one -/
theorem excl_final (h : Counted order ws ctxs f) {x : Nat} {c : List Int} {st : FState XR} (hc : ctxs[x]? = some c)
    (hst : f.states[x]? = some st) (hp : st.final = .pinf) :
    {d ∈ Longer order ws c | 0 < occurrences ws d 0}.ncard = 0 := by
  rcases Nat.eq_zero_or_pos {d ∈ Longer order ws c | 0 < occurrences ws d 0}.ncard with h0 | h0
  · exact h0
  · exfalso
    obtain ⟨d, hd, ho⟩ := (ncard_pos_iff h c 0).mp h0
    have hpre : c <+: d := by rw [← hd.2.2]; exact List.dropLast_prefix d
    exact (final_iff h hc hst).mpr (occurrences_prefix hpre ho) hp

/-- the computation of exclusions, in terms of the text -/
theorem CountedSorted.exclState_eq (h : CountedSorted order ws ctxs f) {x : Nat} {c : List Int}
    {st : FState XR} (hc : ctxs[x]? = some c) (hst : f.states[x]? = some st) :
    exclState (raised f 0 f.states.length x) (finalRaised f 0 f.states.length x) st =
      exclText order ws c st := by
  unfold Ppm.exclState exclText
  rw [h.finalRaised_eq hc]
  congr 1
  · by_cases hp : st.final = .pinf
    · rw [if_pos hp, excl_final h.toCounted hc hst hp]; simp [costOf]
    · rw [if_neg hp]
  · refine List.map_congr_left fun a ha => ?_
    by_cases hl : 0 < a.label
    · rw [if_pos hl, if_pos hl, h.raised_eq hc hl]
    · rw [if_neg hl, if_neg hl]
      congr 3
      · congr 1
        refine List.map_congr_left fun b hb => ?_
        rw [h.raised_eq hc (by simpa using (List.mem_filter.mp hb).2)]
      · by_cases hp : st.final = .pinf
        · rw [if_pos hp, excl_final h.toCounted hc hst hp]; simp
        · rw [if_neg hp]

theorem CountedSorted.trained_node (h : CountedSorted order ws ctxs f) {x : Nat} {c : List Int}
    {st : FState XR} (hc : ctxs[x]? = some c) (hst : f.states[x]? = some st) (hne : c ≠ []) :
    (if BackedOff f x then Ppm.exclState (raised f 0 f.states.length x) (finalRaised f 0 f.states.length x) st else st) =
      trainedState order ws c st := by
  by_cases hb : BackedOff f x
  · have hl := (h.backedOff hc).mp hb
    rw [if_pos hb, h.exclState_eq hc hst]
    unfold trainedState trainedTotal exclText
    rw [if_pos hl]
    simp only [trainedCount_longer hne hl]
  · have hl : ¬ (Longer order ws c).Nonempty := fun e => hb ((h.backedOff hc).mpr e)
    rw [if_neg hb]
    unfold trainedState trainedTotal
    rw [if_neg hl]
    simp only [trainedCount_longest hne hl]
    obtain ⟨fin, arcs⟩ := st
    have hf := h.final x c _ hc hst
    simp only at hf
    rw [FState.mk.injEq]
    refine ⟨hf, ?_⟩
    conv_lhs => rw [← List.map_id arcs]
    refine List.map_congr_left fun a ha => ?_
    simp only [id]
    rcases (h.arcs x c _ hc hst a).mp ha with ⟨h1, h2, h3, h4⟩ | ⟨h1, h2, h3, h4⟩
    · rw [if_neg (by omega), ← h4]
    · rw [if_pos h1, ← h4]

end

section
variable {order : Nat} {lines : List (List Str)} {t : SymbolTable} {V : Nat}

theorem occurrences_symbol {ws : List (List Int)} {w : List Int} (hw : w ∈ ws) {x : Int} (hx : x ∈ w) : 0 < occurrences ws [] x := by
  obtain ⟨p, hp, hpx⟩ := positionsFrom_mem (past := [0]) hx
  exact occurrences_pos.mpr ⟨p, List.mem_flatMap.mpr ⟨w, hw, hp⟩, List.nil_prefix, hpx⟩

theorem start_context {ws : List (List Int)} (ht : TextOk order ws) : ([0] : List Int).take (order - 1) = [0] := by
  have := ht.order
  obtain ⟨k, rfl⟩ : ∃ k, order = k + 2 := ⟨order - 2, by omega⟩
  show ([0] : List Int).take (k + 1) = [0]
  simp

/-- Training a model of order at least two on a text with a character in it. -/
theorem trainFromText_ok {counter : List (List Int) → Fst XR} {ctxs : List (List Int)} (hs : Symbols lines t V)
    (he : encodeLines lines epsilonTable = pure (labelLines t lines, t)) (ho : 2 ≤ order) (hne : ∃ l ∈ lines, l ≠ [])
    (hcnt : Counted order (labelLines t lines) ctxs (counter (labelLines t lines))) :
    ∃ g : Fst XR, trainFromText counter lines = pure (g, t) ∧ g.start = (counter (labelLines t lines)).start ∧
      g.states.length = ctxs.length ∧
      ∀ (x : Nat) (c : List Int) (st : FState XR), ctxs[x]? = some c →
        (arcSort (counter (labelLines t lines))).states[x]? = some st →
        g.states[x]? = some (trainedState order (labelLines t lines) c st) := by
  generalize hws : labelLines t lines = ws at hcnt
  have ht : TextOk order ws := hws ▸ hs.textOk ho hne
  have h := hcnt.sorted
  generalize hf : arcSort (counter ws) = f at h
  have hfs : f.start = (counter ws).start := by rw [← hf]; rfl
  obtain ⟨g, h1, h2, h3⟩ := calculateUpdateExclusions_ok (h.countable ht)
  -- the unigram state
  have hstart := h.start
  rw [start_context ht] at hstart
  obtain ⟨u, ust, hu, hust⟩ := h.index (IsContext.nil (by omega) ht.ne)
  have hub : backoff f f.start = some u := (h.backoff_iff hstart u).mpr ⟨by simp, by simpa using hu⟩
  have hshape : ∀ s : Nat, backoff g s = backoff f s := by
    intro s
    rw [backoff_shape, backoff_shape, h3]
    congr 1
    cases f.states[s]? with
    | none => rfl
    | some st =>
      simp only [Option.map_some, Option.some.injEq]
      split
      · simp only [Ppm.exclState, List.map_map]
        refine List.map_congr_left fun a _ => ?_
        simp only [Function.comp_apply]
        split <;> rfl
      · rfl
  have hgu : g.states[u]? = some (Ppm.exclState (raised f 0 f.states.length u) (finalRaised f 0 f.states.length u) ust) := by
    rw [h3, hust, Option.map_some, if_pos ⟨f.start, hub⟩]
  have hgb : getBackoffState g (g.start : Int) = pure (u : Int) := by
    rw [h2]
    exact getBackoff_some (A := Arith.xr) ((hshape f.start).trans hub)
  have hlab : ∀ a ∈ ust.arcs, 0 < a.label := by
    intro a ha
    rcases (h.arcs u [] ust hu hust a).mp ha with h4 | h4
    · exact absurd rfl h4.2.1
    · exact h4.1
  rw [h.exclState_eq hu hust] at hgu
  have hmiss : missingSymbols t (exclText order ws [] ust) = [] := by
    unfold missingSymbols exclText
    rw [List.filter_eq_nil_iff]
    intro l hl
    simp only [decide_eq_true_eq, not_and, Classical.not_not]
    intro hl0
    rw [List.map_map]
    obtain ⟨e, he1, rfl⟩ := List.mem_map.mp hl
    have hr := hs.dense.label_range he1
    obtain ⟨w, hw1, hw2⟩ := hs.onto (y := e.1) (by omega) (by omega)
    rw [hws] at hw1
    have hmem := (mem_arcLabels h.toCounted hu hust hl0).mpr (occurrences_symbol hw1 hw2)
    exact (List.mem_filter.mp hmem).1
  refine ⟨setState g (u : Int) (trainedState order ws [] ust), ?_, ?_, ?_, ?_⟩
  · unfold trainFromText
    rw [he, Res.pure_bind]
    simp only
    rw [hws, hf, h1, Res.pure_bind]
    unfold addPriorCounts
    rw [hgb, Res.pure_bind, if_neg (by omega), toNat_coe, hgu]
    simp only
    rw [hmiss]
    simp only [if_true, Res.pure_bind, List.map_nil, List.append_nil]
    have key : ({ final := negLogSum (exclText order ws [] ust).final (.fin 0)
                  arcs := (exclText order ws [] ust).arcs.map fun a => { a with weight := negLogSum a.weight (.fin 0) } } : FState XR) =
        trainedState order ws [] ust := by
      unfold trainedState exclText
      simp only
      rw [FState.mk.injEq]
      constructor
      · rw [← costOf_one, negLogSum_costOf (by positivity) (by norm_num), trainedCount_nil]
        push_cast; rfl
      · rw [List.map_map]
        refine List.map_congr_left fun a ha => ?_
        have := hlab a ha
        simp only [Function.comp_apply, if_pos this]
        rw [← costOf_one, negLogSum_costOf (by positivity) (by norm_num), trainedCount_nil]
        push_cast; rfl
    rw [key]
  · rw [setState_nat, ← hfs, ← h2]
  · rw [setState_nat]
    simp only [List.length_set]
    rw [← h.len]
    have key : ∀ s : Nat, g.states[s]? = none ↔ f.states[s]? = none := by
      intro s; rw [h3]; cases f.states[s]? <;> simp
    have k1 := (key g.states.length).mp (by simp)
    have k2 := (key f.states.length).mpr (by simp)
    rw [List.getElem?_eq_none_iff] at k1 k2
    omega
  · intro x c st hc hst
    rw [setState_nat]
    simp only
    by_cases hx : x = u
    · subst hx
      rw [hu] at hc; injection hc with hc
      rw [hust] at hst; injection hst with hst
      rw [List.getElem?_set_self (lt_of_getElem?_eq_some hgu), hc, hst]
    · rw [List.getElem?_set_ne (fun e => hx e.symm), h3, hst, Option.map_some]
      have hcne : c ≠ [] := by
        rintro rfl
        exact hx (ctxs_inj h.nodup hc hu)
      rw [h.trained_node hc hst hcne]

end
end Mozolm.Ppm
