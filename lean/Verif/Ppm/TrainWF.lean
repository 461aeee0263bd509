import Verif.Ppm.TrainOk

/-! # The trained automaton is well-formed and has the intended counts -/

namespace Mozolm.Ppm
open XR Classical

section
variable {order : Nat} {ws ctxs : List (List Int)} {f : Fst XR}

theorem trained_pos (h : Counted order ws ctxs f) (hw : ∀ w ∈ ws, ∀ x ∈ w, 0 < x) {c : List Int} (hc : c ≠ []) (y : Int) :
    0 < trainedCount order ws c y ↔ 0 < occurrences ws c y := by
  by_cases hl : (Longer order ws c).Nonempty
  · rw [trainedCount_longer hc hl, ncard_pos_iff h]
    constructor
    · rintro ⟨d, hd, ho⟩
      have hpre : c <+: d := by rw [← hd.2.2]; exact List.dropLast_prefix d
      exact occurrences_prefix hpre ho
    · exact seen_longer hw hl
  · rw [trainedCount_longest hc hl]

/-- the length of the context of a state -/
def ctxOrd (ctxs : List (List Int)) (s : Nat) : Nat := (ctxs[s]?.map List.length).getD 0

theorem ctxOrd_of {s : Nat} {c : List Int} (h : ctxs[s]? = some c) : ctxOrd ctxs s = c.length := by
  unfold ctxOrd; rw [h]; rfl

theorem find?_unique {C : Type} {arcs : List (Arc C)} (hn : (arcs.map Arc.label).Nodup) {a : Arc C} (ha : a ∈ arcs) :
    arcs.find? (fun b => b.label == a.label) = some a := by
  cases hf : arcs.find? (fun b => b.label == a.label) with
  | none =>
    rw [List.find?_eq_none] at hf
    exact absurd (by simp) (hf a ha)
  | some b =>
    have h1 := List.mem_of_find?_eq_some hf
    have h2 : b.label = a.label := by have := List.find?_some hf; simpa using this
    rw [List.inj_on_of_nodup_map hn h1 ha h2]

theorem find?_absent {C : Type} {arcs : List (Arc C)} {y : Int} (h : ∀ a ∈ arcs, a.label ≠ y) :
    arcs.find? (fun b => b.label == y) = none := by
  rw [List.find?_eq_none]
  intro a ha
  simpa using h a ha

theorem find?_map_weight {C : Type} (W : Arc C → C) (arcs : List (Arc C)) (y : Int) :
    (arcs.map fun a => { a with weight := W a }).find? (fun b => b.label == y) =
      (arcs.find? fun b => b.label == y).map fun a => { a with weight := W a } := by
  rw [List.find?_map]; rfl

/-- what training returns, given the counter's automaton `f`, sorted -/
structure TrainedFrom (order : Nat) (ws ctxs : List (List Int)) (V : Nat) (f g : Fst XR) : Prop where
  counted : CountedSorted order ws ctxs f
  text : TextOk order ws
  range : ∀ w ∈ ws, ∀ x ∈ w, 0 < x ∧ x ≤ V
  onto : ∀ y : Int, 1 ≤ y → y ≤ V → ∃ w ∈ ws, y ∈ w
  start : g.start = f.start
  len : g.states.length = ctxs.length
  states : ∀ (x : Nat) (c : List Int) (st : FState XR), ctxs[x]? = some c → f.states[x]? = some st →
    g.states[x]? = some (trainedState order ws c st)

variable {V : Nat} {g : Fst XR}

theorem TrainedFrom.get (h : TrainedFrom order ws ctxs V f g) {x : Nat} {c : List Int} (hc : ctxs[x]? = some c) :
    ∃ st : FState XR, f.states[x]? = some st ∧ g.states[x]? = some (trainedState order ws c st) := by
  obtain ⟨st, hst⟩ := exists_getElem?_of_lt (l := f.states) (i := x)
    (by rw [h.counted.len]; exact lt_of_getElem?_eq_some hc)
  exact ⟨st, hst, h.states x c st hc hst⟩

theorem TrainedFrom.backoff (h : TrainedFrom order ws ctxs V f g) (s : Nat) : backoff g s = Ppm.backoff f s := by
  rw [backoff_shape, backoff_shape]
  congr 1
  cases hc : ctxs[s]? with
  | none =>
    have h1 : f.states[s]? = none := by rw [List.getElem?_eq_none_iff, h.counted.len]; exact List.getElem?_eq_none_iff.mp hc
    have h2 : g.states[s]? = none := by rw [List.getElem?_eq_none_iff, h.len]; exact List.getElem?_eq_none_iff.mp hc
    rw [h1, h2]
  | some c =>
    obtain ⟨st, h1, h2⟩ := h.get hc
    rw [h1, h2]
    simp only [Option.map_some, Option.some.injEq, trainedState, List.map_map]
    exact List.map_congr_left fun a _ => rfl

theorem TrainedFrom.arc (h : TrainedFrom order ws ctxs V f g) {s : Nat} {c : List Int} {st : FState XR}
    (hc : ctxs[s]? = some c) (hst : f.states[s]? = some st) {y : Int} (hy : 0 < y) (ho : 0 < occurrences ws c y) :
    ∃ t : Nat, ctxs[t]? = some ((y :: c).take (order - 1)) ∧ (⟨y, costOf (occurrences ws c y), t⟩ : Arc XR) ∈ st.arcs := by
  have hctx := (h.counted.contexts c).mp (List.mem_of_getElem? hc)
  obtain ⟨t, _, ht, _⟩ := h.counted.index (hctx.next (by omega) ho)
  exact ⟨t, ht, (h.counted.arcs s c st hc hst _).mpr (.inr ⟨hy, ho, ht, rfl⟩)⟩

theorem occurrences_le (h : ∀ w ∈ ws, ∀ x ∈ w, 0 < x ∧ x ≤ (V : Int)) {c : List Int} {y : Int}
    (ho : 0 < occurrences ws c y) : 0 ≤ y ∧ y ≤ V := by
  obtain ⟨p, h1, _, rfl⟩ := occurrences_pos.mp ho
  rcases (positions_ok (fun w hw x hx => (h w hw x hx).1) p h1).2 with h0 | ⟨w, hw, hx⟩
  · omega
  · have := h w hw _ hx; omega

theorem TrainedFrom.count_arc (h : TrainedFrom order ws ctxs V f g) {s : Nat} {c : List Int} (hc : ctxs[s]? = some c)
    {y : Int} (hy : 0 < y) (ho : 0 < occurrences ws c y) : ∃ t : Nat, ctxs[t]? = some ((y :: c).take (order - 1)) ∧
      count Arith.xr g s y = some (costOf (trainedCount order ws c y)) ∧ Ppm.target g s y = some t := by
  obtain ⟨st, h1, h2⟩ := h.get hc
  obtain ⟨t, ht, ha⟩ := h.arc hc h1 hy ho
  have hfind := find?_unique (h.counted.labels_nodup h1) ha
  simp only at hfind
  refine ⟨t, ht, ?_, ?_⟩
  · rw [count_of (A := Arith.xr) h2]
    unfold stateCount
    rw [if_neg (by omega)]
    simp only [trainedState]
    rw [find?_map_weight, hfind]
    simp only [Option.map_some, if_pos hy]
  · unfold Ppm.target
    rw [if_neg (by omega), h2]
    simp only [Option.bind_some, trainedState]
    rw [find?_map_weight, hfind]
    rfl

theorem TrainedFrom.count_none (h : TrainedFrom order ws ctxs V f g) {s : Nat} {c : List Int} (hc : ctxs[s]? = some c)
    {y : Int} (hy : 0 < y) (ho : occurrences ws c y = 0) :
      count Arith.xr g s y = none ∧ Ppm.target g s y = none := by
  obtain ⟨st, h1, h2⟩ := h.get hc
  have habs : ∀ a ∈ st.arcs, a.label ≠ y := by
    intro a ha e
    rcases (h.counted.arcs s c st hc h1 a).mp ha with h3 | h3
    · omega
    · rw [e] at h3; omega
  have hfind := find?_absent habs
  refine ⟨?_, ?_⟩
  · rw [count_of (A := Arith.xr) h2]
    unfold stateCount
    rw [if_neg (by omega)]
    simp only [trainedState]
    rw [find?_map_weight, hfind]
    rfl
  · unfold Ppm.target
    rw [if_neg (by omega), h2]
    simp only [Option.bind_some, trainedState]
    rw [find?_map_weight, hfind]
    rfl

theorem TrainedFrom.counts (h : TrainedFrom order ws ctxs V f g) {s : Nat} {c : List Int} (hc : ctxs[s]? = some c)
    {y : Nat} (hy : y ≤ V) : count Arith.xr g s y =
      if trainedCount order ws c y = 0 then none else some (costOf (trainedCount order ws c y)) := by
  by_cases h0 : y = 0
  · subst h0
    obtain ⟨st, h1, h2⟩ := h.get hc
    rw [count_of (A := Arith.xr) h2]
    unfold stateCount
    show (if decide ((trainedState order ws c st).final = .pinf) = true then none else some (trainedState order ws c st).final) = _
    simp only [trainedState, costOf_eq_pinf, decide_eq_true_eq, Nat.cast_eq_zero, Nat.cast_zero]
  · have hy0 : (0 : Int) < y := by omega
    by_cases ho : 0 < occurrences ws c y
    · obtain ⟨t, _, h2, _⟩ := h.count_arc hc hy0 ho
      rw [h2, if_neg]
      by_cases hne : c = []
      · subst hne; rw [trainedCount_nil]; omega
      · have := (trained_pos h.counted.toCounted h.text.labels hne (y : Int)).mpr ho
        omega
    · rw [(h.count_none hc hy0 (by omega)).1, if_pos]
      by_cases hne : c = []
      · subst hne
        exfalso
        obtain ⟨w, hw1, hw2⟩ := h.onto y (by omega) (by omega)
        exact ho (occurrences_symbol hw1 hw2)
      · have := (trained_pos h.counted.toCounted h.text.labels hne (y : Int)).not.mpr ho
        omega

theorem TrainedFrom.trained (h : TrainedFrom order ws ctxs V f g) : Trained order ws ctxs V g := by
  refine ⟨h.counted.nodup, h.counted.contexts, h.len, by rw [h.start]; exact h.counted.start, ?_, ?_, ?_, ?_⟩
  · exact fun s c hc y hy => h.counts hc hy
  · intro s c hc b; rw [h.backoff]; exact h.counted.backoff_iff hc b
  · intro s c hc y hy ho
    obtain ⟨t, h1, _, h2⟩ := h.count_arc hc hy ho
    exact ⟨t, h2, h1⟩
  · intro s c hc y hy hyV ho
    rw [if_neg]
    · exact (h.count_none hc hy ho).2
    · rintro rfl
      obtain ⟨w, hw1, hw2⟩ := h.onto y (by omega) hyV
      have := occurrences_symbol hw1 hw2
      omega

theorem okR_nat {n : Nat} (h : 0 < n) : OkR (costOf (n : ℝ)) := okR_costOf (by exact_mod_cast h)

theorem TrainedFrom.unigram (h : TrainedFrom order ws ctxs V f g) : ∃ u : Nat, ctxs[u]? = some [] ∧
    Ppm.backoff g g.start = some u := by
  obtain ⟨u, _, hu, _⟩ := h.counted.index (IsContext.nil (by have := h.text.order; omega) h.text.ne)
  refine ⟨u, hu, ?_⟩
  have hs := h.counted.start
  rw [start_context h.text] at hs
  rw [h.backoff, h.start]
  exact (h.counted.backoff_iff hs u).mpr ⟨by simp, by simpa using hu⟩

/-- the trained automaton is well-formed, for the symbols of the text -/
theorem TrainedFrom.wf (h : TrainedFrom order ws ctxs V f g) {u : Nat} (hu : ctxs[u]? = some []) :
    WF Arith.xr OkR g (ctxOrd ctxs) order V u := by
  have hV : 0 < V := by
    obtain ⟨w, hw, hne⟩ := h.text.lines
    obtain ⟨x, hx⟩ := List.exists_mem_of_ne_nil w hne
    have := h.range w hw x hx
    omega
  refine ⟨?_, by rw [h.len]; exact lt_of_getElem?_eq_some hu, by rw [ctxOrd_of hu]; rfl, ?_, hV⟩
  · intro s st' hst'
    obtain ⟨c, hc⟩ := exists_getElem?_of_lt (l := ctxs) (i := s) (by rw [← h.len]; exact lt_of_getElem?_eq_some hst')
    obtain ⟨st, h1, h2⟩ := h.get hc
    rw [h2] at hst'
    injection hst' with hst'
    subst hst'
    have hctx := (h.counted.contexts c).mp (List.mem_of_getElem? hc)
    have hlab : ((trainedState order ws c st).arcs.map Arc.label) = st.arcs.map Arc.label := by
      simp only [trainedState, List.map_map]
      exact List.map_congr_left fun a _ => rfl
    refine ⟨?_, ?_, ?_, ?_, ?_⟩
    · intro a' ha' h0
      obtain ⟨a, ha, rfl⟩ := List.mem_map.mp ha'
      simp only at h0 ⊢
      rcases (h.counted.arcs s c st hc h1 a).mp ha with h3 | ⟨h3, h4, h5, h6⟩
      · exact absurd h3.1 h0
      · rw [if_pos h3]
        refine ⟨?_, ?_, ?_, by omega, (occurrences_le h.range h4).2⟩
        · refine okR_nat ?_
          by_cases hne : c = []
          · subst hne; rw [trainedCount_nil]; omega
          · exact (trained_pos h.counted.toCounted h.text.labels hne _).mpr h4
        · rw [h.len]; exact lt_of_getElem?_eq_some h5
        · rw [ctxOrd_of h5, ctxOrd_of hc, List.length_take, List.length_cons]
          have := hctx.1
          omega
    · rw [hlab]; exact h.counted.labels_nodup h1
    · rw [ctxOrd_of hc]
      exact_mod_cast hctx.1
    · rintro rfl
      rw [hu] at hc; injection hc with hc; subst hc
      refine ⟨?_, ?_, ?_, ?_⟩
      · simp only [trainedState]
        exact okR_nat (by rw [trainedCount_nil]; omega)
      · have hn := h.counted.labels_nodup h1
        have hset : (st.arcs.map Arc.label).toFinset = Finset.Icc (1 : Int) V := by
          ext y
          simp only [List.mem_toFinset, Finset.mem_Icc]
          constructor
          · intro hy
            obtain ⟨a, ha, rfl⟩ := List.mem_map.mp hy
            rcases (h.counted.arcs s [] st hu h1 a).mp ha with h3 | ⟨h3, h4, h5, h6⟩
            · exact absurd rfl h3.2.1
            · have := (occurrences_le h.range h4).2
              omega
          · rintro ⟨hy1, hy2⟩
            obtain ⟨w, hw1, hw2⟩ := h.onto y hy1 hy2
            obtain ⟨t, _, ha⟩ := h.arc hu h1 (by omega) (occurrences_symbol hw1 hw2)
            exact List.mem_map.mpr ⟨_, ha, rfl⟩
        have := List.toFinset_card_of_nodup hn
        rw [hset] at this
        simp only [Int.card_Icc, List.length_map] at this
        simp only [trainedState, List.length_map]
        omega
      · intro a' ha'
        obtain ⟨a, ha, rfl⟩ := List.mem_map.mp ha'
        simp only
        rcases (h.counted.arcs s [] st hu h1 a).mp ha with h3 | h3
        · exact absurd rfl h3.2.1
        · omega
      · intro y hy1 hy2
        obtain ⟨w, hw1, hw2⟩ := h.onto y hy1 hy2
        obtain ⟨t, _, ha⟩ := h.arc hu h1 (by omega) (occurrences_symbol hw1 hw2)
        exact ⟨_, List.mem_map_of_mem ha, rfl⟩
    · intro hsu
      have hne : c ≠ [] := by
        rintro rfl
        exact hsu (ctxs_inj h.counted.nodup hc hu)
      refine ⟨?_, ?_⟩
      · rcases Nat.eq_zero_or_pos (trainedCount order ws c 0) with h0 | h0
        · left
          refine decide_eq_true ?_
          simp only [trainedState]
          rw [costOf_eq_pinf, h0]; simp
        · exact .inr (okR_nat h0)
      · obtain ⟨b, _, hb, _⟩ := h.counted.index (hctx.prefix (List.dropLast_prefix c))
        have hb' : Ppm.backoff g s = some b := by rw [h.backoff]; exact (h.counted.backoff_iff hc b).mpr ⟨hne, hb⟩
        unfold Ppm.backoff at hb'
        rw [h2] at hb'
        simp only at hb'
        cases ha : (trainedState order ws c st).arcs with
        | nil => rw [ha] at hb'; cases hb'
        | cons a rest =>
          rw [ha] at hb'
          simp only at hb'
          by_cases h0 : a.label = 0
          · rw [if_pos h0] at hb'
            injection hb' with hb'
            obtain ⟨al, aw, an⟩ := a
            simp only at h0 hb'
            subst h0; subst hb'
            refine ⟨aw, an, rest, rfl, ?_, ?_⟩
            · rw [h.len]; exact lt_of_getElem?_eq_some hb
            · rw [ctxOrd_of hc, ctxOrd_of hb, List.length_dropLast]
              have : 0 < c.length := List.length_pos_iff.mpr hne
              omega
          · rw [if_neg h0] at hb'; cases hb'
  · obtain ⟨u', hu', hb⟩ := h.unigram
    rw [hb, ctxs_inj h.counted.nodup hu hu']

theorem TrainedFrom.totals (h : TrainedFrom order ws ctxs V f g) : Totals g V := by
  obtain ⟨u, hu, _⟩ := h.unigram
  have wf := h.wf hu
  intro s b hb
  have hlt := backoff_lt hb
  obtain ⟨c, hc⟩ := exists_getElem?_of_lt (l := ctxs) (i := s) (by rw [← h.len]; exact hlt)
  obtain ⟨st, h1, h2⟩ := h.get hc
  have hctx := (h.counted.contexts c).mp (List.mem_of_getElem? hc)
  have hne : c ≠ [] := by
    rw [h.backoff] at hb
    exact ((h.counted.backoff_iff hc b).mp hb).1
  have hcnt : ∀ y : Nat, y ≤ V → cnt g s y = (trainedCount order ws c (y : Nat) : ℝ) := by
    intro y hy
    unfold cnt
    rw [h.counts hc hy]
    by_cases h0 : trainedCount order ws c y = 0
    · rw [if_pos h0, h0]; simp
    · rw [if_neg h0]
      exact value_costOf (by positivity)
  have htot : total g V s = ∑ y ∈ Finset.range (V + 1), (trainedCount order ws c (y : Nat) : ℝ) :=
    Finset.sum_congr rfl fun y hy => hcnt y (by rw [Finset.mem_range] at hy; omega)
  have hstored : storedTotal g s = some (trainedTotal order ws c st) := by
    unfold storedTotal
    rw [h2]
    obtain ⟨_, w, b', rest, hr, _⟩ := (wf.states s _ h2).node (by rintro rfl; rw [hu] at hc; injection hc with hc; exact hne hc.symm)
    simp only [Option.bind_some]
    rw [hr]
    simp only [if_true]
    have : (trainedState order ws c st).arcs.head? = some ⟨0, w, b'⟩ := by rw [hr]; rfl
    simp only [trainedState, List.head?_map, Option.map_eq_some_iff] at this
    obtain ⟨a, _, ha⟩ := this
    rw [Arc.mk.injEq] at ha
    obtain ⟨ha1, ha2, _⟩ := ha
    rw [if_neg (by omega)] at ha2
    rw [ha2]
  have heq : trainedTotal order ws c st = costOf (total g V s) := by
    by_cases hl : (Longer order ws c).Nonempty
    · unfold trainedTotal
      rw [if_pos hl, total_eq, wf.sum_count value h2]
      congr 1
      rw [add_comm]
      congr 1
      · unfold stateCount
        show _ = num value (if decide ((trainedState order ws c st).final = .pinf) = true then none else some (trainedState order ws c st).final)
        simp only [trainedState, costOf_eq_pinf, decide_eq_true_eq, Nat.cast_eq_zero]
        by_cases h0 : trainedCount order ws c 0 = 0
        · rw [if_pos h0, h0]; simp [num]
        · rw [if_neg h0]; exact (value_costOf (by positivity)).symm
      · simp only [trainedState]
        rw [List.filter_map, List.map_map]
        have hfil : st.arcs.filter (fun a => decide (0 < a.label)) = st.arcs.filter ((fun a : Arc XR => a.label != 0) ∘
            fun a => { a with weight := if 0 < a.label then costOf (trainedCount order ws c a.label) else trainedTotal order ws c st }) := by
          refine List.filter_congr fun a ha => ?_
          have := h.counted.label_nonneg h1 a ha
          simp only [Function.comp_apply]
          by_cases h0 : a.label = 0
          · simp [h0]
          · rw [decide_eq_true (by omega), bne_iff_ne.mpr h0]
        rw [← hfil]
        congr 1
        refine List.map_congr_left fun a ha => ?_
        have hp : 0 < a.label := by simpa using (List.mem_filter.mp ha).2
        simp only [Function.comp_apply, if_pos hp]
        exact (value_costOf (by positivity)).symm
    · unfold trainedTotal
      rw [if_neg hl, htot]
      simp only [trainedCount_longest hne hl]
      rw [← Nat.cast_sum, sum_occurrences]
      intro p hp
      rcases (positions_ok h.text.labels p hp).2 with h0 | ⟨w, hw, hx⟩
      · exact ⟨0, by simp [h0], by omega⟩
      · have := h.range w hw _ hx
        exact ⟨p.2.toNat, by omega, by omega⟩
  -- every context was followed by something
  have hpos : 0 < total g V s := by
    obtain ⟨_, p, hp, hpre⟩ := hctx
    have ho : 0 < occurrences ws c p.2 := occurrences_pos.mpr ⟨p, hp, hpre, rfl⟩
    have hr := occurrences_le h.range ho
    have hp2 : p.2 = ((p.2.toNat : Nat) : Int) := by omega
    have ht := (trained_pos h.counted.toCounted h.text.labels hne p.2).mpr ho
    rw [hp2] at ht
    rw [htot]
    refine Finset.sum_pos' (fun y _ => by positivity) ⟨p.2.toNat, by rw [Finset.mem_range]; omega, by exact_mod_cast ht⟩
  exact ⟨fun h0 => by linarith, fun _ => by rw [hstored, heq]⟩

/-- symbols of a vocabulary that are not in the text have the counts a trained model should have -/
theorem Trained.grown (h : Trained order ws ctxs V f) (hr : ∀ w ∈ ws, ∀ x ∈ w, 0 < x ∧ x ≤ (V : Int)) {V' u : Nat}
    (hu : ctxs[u]? = some []) {ord : Nat → Nat} {mo : Int} (wf : WF Arith.xr OkR f ord mo V u)
    (hg : Grown Arith.xr f g V V' u) (hV : V ≤ V') : Trained order ws ctxs V' g := by
  have hut : ∀ (s : Nat) (c : List Int), ctxs[s]? = some c → s ≠ u → c ≠ [] := by
    rintro s c hc hsu rfl
    exact hsu (ctxs_inj h.nodup hc hu)
  obtain ⟨ust, hust⟩ := exists_getElem?_of_lt wf.u_lt
  have hgu := hg.unigram
  rw [hust, Option.map_some] at hgu
  have hunseen : ∀ c y, (V : Int) < y → occurrences ws c y = 0 := by
    intro c y hy
    rcases Nat.eq_zero_or_pos (occurrences ws c y) with h0 | h0
    · exact h0
    · have := (occurrences_le hr h0).2; omega
  have hloop : ∀ y : Int, (V : Int) < y → y ≤ V' → (ust.arcs ++ loops Arith.xr u V (V' - V)).find? (fun b => b.label == y) =
      some ⟨y, .fin 0, u⟩ := by
    intro y h1 h2
    rw [List.find?_append, find?_absent (arcs := ust.arcs) (y := y) ?_, Option.none_or]
    · have hn : ((loops Arith.xr u V (V' - V)).map Arc.label).Nodup := by
        unfold loops
        rw [List.map_map]
        refine List.nodup_range.map fun a b e => ?_
        simp only [Function.comp_apply] at e
        omega
      have hm : (⟨y, .fin 0, u⟩ : Arc XR) ∈ loops Arith.xr u V (V' - V) := by
        unfold loops
        rw [List.mem_map]
        refine ⟨(y - V - 1).toNat, List.mem_range.mpr (by omega), ?_⟩
        rw [Arc.mk.injEq]
        refine ⟨by omega, ?_, rfl⟩
        rfl
      exact find?_unique hn hm
    · intro a ha e
      have := wf.labels hust a ha
      omega
  have hold : ∀ y : Int, 0 < y → y ≤ V → (ust.arcs ++ loops Arith.xr u V (V' - V)).find? (fun b => b.label == y) =
      ust.arcs.find? (fun b => b.label == y) := by
    intro y h1 h2
    rw [List.find?_append]
    have : (loops Arith.xr u V (V' - V)).find? (fun b => b.label == y) = none := by
      refine find?_absent fun a ha e => ?_
      unfold loops at ha
      obtain ⟨i, _, rfl⟩ := List.mem_map.mp ha
      simp only at e; omega
    rw [this, Option.or_none]
  refine ⟨h.nodup, h.contexts, hg.len.trans h.len, by rw [hg.start]; exact h.start, ?_, ?_, ?_, ?_⟩
  · intro s c hc y hy
    by_cases hsu : s = u
    · subst hsu
      rw [hu] at hc; injection hc with hc; subst hc
      by_cases hyV : y ≤ V
      · rw [← h.counts s [] hu y hyV, count_of (A := Arith.xr) hgu, count_of (A := Arith.xr) hust]
        unfold stateCount
        by_cases h0 : (y : Int) = 0
        · rw [if_pos h0, if_pos h0]
        · rw [if_neg h0, if_neg h0]
          simp only
          rw [hold _ (by omega) (by omega)]
      · have hcard : trainedCount order ws [] y = 1 := by
          rw [trainedCount_nil]
          have : {d ∈ Longer order ws [] | 0 < occurrences ws d (y : Int)} = ∅ := by
            ext d
            simp only [Set.mem_ofPred_eq, Set.mem_empty_iff_false, iff_false, not_and]
            intro _
            rw [hunseen d y (by omega)]; omega
          rw [this]; simp
        rw [hcard, if_neg (by omega), count_of (A := Arith.xr) hgu]
        unfold stateCount
        rw [if_neg (by omega)]
        simp only
        rw [hloop _ (by omega) (by omega)]
        simp [costOf_one]
    · rw [count_congr (hg.others s hsu)]
      by_cases hyV : y ≤ V
      · exact h.counts s c hc y hyV
      · have hcne := hut s c hc hsu
        have : trainedCount order ws c y = 0 := by
          by_cases hl : (Longer order ws c).Nonempty
          · rw [trainedCount_longer hcne hl]
            have : {d ∈ Longer order ws c | 0 < occurrences ws d (y : Int)} = ∅ := by
              ext d
              simp only [Set.mem_ofPred_eq, Set.mem_empty_iff_false, iff_false, not_and]
              intro _
              rw [hunseen d y (by omega)]; omega
            rw [this]; simp
          · rw [trainedCount_longest hcne hl]; exact hunseen c y (by omega)
        rw [if_pos this]
        cases hct : count Arith.xr f s (y : Int) with
        | none => rfl
        | some w =>
          exfalso
          obtain ⟨st, hst⟩ := exists_getElem?_of_lt (l := f.states) (i := s) (by rw [h.len]; exact lt_of_getElem?_eq_some hc)
          rw [count_of (A := Arith.xr) hst] at hct
          unfold stateCount at hct
          rw [if_neg (by omega), Option.map_eq_some_iff] at hct
          obtain ⟨a, ha, _⟩ := hct
          obtain ⟨k1, k2⟩ := find?_label_eq ha
          have := wf.labels hst a k1
          omega
  · intro s c hc b
    rw [← h.backoff s c hc b]
    by_cases hsu : s = u
    · subst hsu
      have : Ppm.backoff g s = Ppm.backoff f s := by
        unfold Ppm.backoff
        rw [hgu, hust]
        simp only
        cases ha : ust.arcs with
        | nil =>
          have := (wf.states s ust hust).unigram rfl
          rw [ha] at this
          have hV := wf.V_pos
          simp only [List.length_nil] at this
          omega
        | cons a rest => rfl
      rw [this]
    · unfold Ppm.backoff; rw [hg.others s hsu]
  · intro s c hc y hy ho
    obtain ⟨t, h1, h2⟩ := h.target s c hc y hy ho
    refine ⟨t, ?_, h2⟩
    rw [← h1]
    unfold Ppm.target
    rw [if_neg (by omega), if_neg (by omega)]
    by_cases hsu : s = u
    · subst hsu
      rw [hgu, hust]
      simp only [Option.bind_some]
      rw [hold y hy (occurrences_le hr ho).2]
    · rw [hg.others s hsu]
  · intro s c hc y hy hyV ho
    by_cases hyV0 : y ≤ V
    · rw [← h.other s c hc y hy hyV0 ho]
      unfold Ppm.target
      rw [if_neg (by omega), if_neg (by omega)]
      by_cases hsu : s = u
      · subst hsu
        rw [hgu, hust]
        simp only [Option.bind_some]
        rw [hold y hy hyV0]
      · rw [hg.others s hsu]
    · unfold Ppm.target
      rw [if_neg (by omega)]
      by_cases hsu : s = u
      · subst hsu
        rw [hu] at hc; injection hc with hc
        rw [if_pos hc.symm, hgu]
        simp only [Option.bind_some]
        rw [hloop y (by omega) hyV]; rfl
      · rw [if_neg (hut s c hc hsu), hg.others s hsu]
        obtain ⟨st, hst⟩ := exists_getElem?_of_lt (l := f.states) (i := s) (by rw [h.len]; exact lt_of_getElem?_eq_some hc)
        rw [hst]
        simp only [Option.bind_some]
        rw [find?_absent]
        · rfl
        · intro a ha e
          have := wf.labels hst a ha
          omega

end
end Mozolm.Ppm
