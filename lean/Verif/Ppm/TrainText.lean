import Verif.Ppm.TrainSpec
import Verif.Ppm.TrainExclusion

/-! # Contexts of a text, and the automaton the counter returns -/

namespace Mozolm.Ppm
open XR Classical

/-! ## Positions -/

/-- what precedes a position: symbols of the line, then the beginning -/
def PastOk (past : List Int) : Prop := ∃ l : List Int, past = l ++ [0] ∧ ∀ x ∈ l, 0 < x

theorem positionsFrom_past {w : List Int} (hw : ∀ x ∈ w, 0 < x) : ∀ {past : List Int}, PastOk past →
    ∀ p ∈ positionsFrom past w, PastOk p.1 ∧ (p.2 = 0 ∨ p.2 ∈ w) := by
  induction w with
  | nil =>
    intro past h p hp
    simp only [positionsFrom, List.mem_singleton] at hp
    subst hp; exact ⟨h, .inl rfl⟩
  | cons x w ih =>
    intro past h p hp
    simp only [positionsFrom, List.mem_cons] at hp
    rcases hp with rfl | hp
    · exact ⟨h, .inr (by simp)⟩
    · obtain ⟨l, rfl, hl⟩ := h
      have := ih (fun y hy => hw y (List.mem_cons_of_mem _ hy)) (past := x :: (l ++ [0]))
        ⟨x :: l, rfl, by intro y hy; rcases List.mem_cons.mp hy with rfl | hy; exact hw _ (by simp); exact hl y hy⟩ p hp
      exact ⟨this.1, this.2.imp id (List.mem_cons_of_mem _)⟩

theorem positionsFrom_next {w : List Int} : ∀ {past : List Int}, ∀ p ∈ positionsFrom past w, p.2 ≠ 0 →
    ∃ q ∈ positionsFrom past w, q.1 = p.2 :: p.1 := by
  induction w with
  | nil =>
    intro past p hp hne
    simp only [positionsFrom, List.mem_singleton] at hp
    subst hp; exact absurd rfl hne
  | cons x w ih =>
    intro past p hp hne
    simp only [positionsFrom, List.mem_cons] at hp
    rcases hp with rfl | hp
    · cases w with
      | nil => exact ⟨(x :: past, 0), by simp [positionsFrom], rfl⟩
      | cons y w => exact ⟨(x :: past, y), by simp [positionsFrom], rfl⟩
    · obtain ⟨q, hq, hq'⟩ := ih p hp hne
      exact ⟨q, by simp only [positionsFrom, List.mem_cons]; exact .inr hq, hq'⟩

theorem positionsFrom_mem {w : List Int} : ∀ {past : List Int} {x : Int}, x ∈ w → ∃ p ∈ positionsFrom past w, p.2 = x := by
  induction w with
  | nil => intro past x hx; cases hx
  | cons y w ih =>
    intro past x hx
    rcases List.mem_cons.mp hx with rfl | hx
    · exact ⟨(past, x), by simp [positionsFrom], rfl⟩
    · obtain ⟨p, hp, hpx⟩ := ih (past := y :: past) hx
      exact ⟨p, by simp only [positionsFrom, List.mem_cons]; exact .inr hp, hpx⟩

theorem positionsFrom_end {w : List Int} : ∀ {past : List Int}, ∃ p ∈ positionsFrom past w, p.2 = 0 := by
  induction w with
  | nil => intro past; exact ⟨(past, 0), by simp [positionsFrom], rfl⟩
  | cons y w ih =>
    intro past
    obtain ⟨p, hp, hpx⟩ := ih (past := y :: past)
    exact ⟨p, by simp only [positionsFrom, List.mem_cons]; exact .inr hp, hpx⟩

theorem positionsFrom_first (w past : List Int) : ∃ y, (past, y) ∈ positionsFrom past w := by
  cases w with
  | nil => exact ⟨0, by simp [positionsFrom]⟩
  | cons x w => exact ⟨x, by simp [positionsFrom]⟩

section
variable {ws : List (List Int)}

theorem positions_ok (hw : ∀ w ∈ ws, ∀ x ∈ w, 0 < x) : ∀ p ∈ positions ws, PastOk p.1 ∧ (p.2 = 0 ∨ ∃ w ∈ ws, p.2 ∈ w) := by
  intro p hp
  obtain ⟨w, h1, h2⟩ := List.mem_flatMap.mp hp
  obtain ⟨h3, h4⟩ := positionsFrom_past (hw w h1) ⟨[], rfl, by simp⟩ p h2
  exact ⟨h3, h4.imp id fun h => ⟨w, h1, h⟩⟩

theorem positions_next : ∀ p ∈ positions ws, p.2 ≠ 0 → ∃ q ∈ positions ws, q.1 = p.2 :: p.1 := by
  intro p hp hne
  obtain ⟨w, h1, h2⟩ := List.mem_flatMap.mp hp
  obtain ⟨q, h3, h4⟩ := positionsFrom_next p h2 hne
  exact ⟨q, List.mem_flatMap.mpr ⟨w, h1, h3⟩, h4⟩

theorem occurrences_pos {c : List Int} {y : Int} :
    0 < occurrences ws c y ↔ ∃ p ∈ positions ws, c <+: p.1 ∧ p.2 = y := by
  unfold occurrences
  rw [List.countP_pos_iff]
  simp

theorem occurrencesAll_pos {c : List Int} : 0 < occurrencesAll ws c ↔ ∃ p ∈ positions ws, c <+: p.1 := by
  unfold occurrencesAll
  rw [List.countP_pos_iff]
  simp

theorem occurrences_prefix {c d : List Int} {y : Int} (h : c <+: d) (hd : 0 < occurrences ws d y) :
    0 < occurrences ws c y := by
  rw [occurrences_pos] at hd ⊢
  obtain ⟨p, h1, h2, h3⟩ := hd
  exact ⟨p, h1, h.trans h2, h3⟩

variable {order : Nat}

theorem IsContext.prefix {c d : List Int} (hd : IsContext order ws d) (h : c <+: d) : IsContext order ws c := by
  obtain ⟨h1, p, h2, h3⟩ := hd
  exact ⟨lt_of_le_of_lt h.length_le h1, p, h2, h.trans h3⟩

theorem IsContext.start (ho : 1 ≤ order) (hne : ws ≠ []) : IsContext order ws (([0] : List Int).take (order - 1)) := by
  obtain ⟨w, hw⟩ := List.exists_mem_of_ne_nil ws hne
  obtain ⟨y, hy⟩ := positionsFrom_first w [0]
  refine ⟨?_, _, List.mem_flatMap.mpr ⟨w, hw, hy⟩, List.take_prefix _ _⟩
  rw [List.length_take]; omega

theorem IsContext.nil (ho : 1 ≤ order) (hne : ws ≠ []) : IsContext order ws [] :=
  (IsContext.start ho hne).prefix List.nil_prefix

theorem IsContext.next {c : List Int} {x : Int} (hc : IsContext order ws c) (hx : x ≠ 0) (ho : 0 < occurrences ws c x) :
    IsContext order ws ((x :: c).take (order - 1)) := by
  obtain ⟨p, h1, h2, rfl⟩ := occurrences_pos.mp ho
  obtain ⟨q, h3, h4⟩ := positions_next p h1 hx
  have := hc.1
  refine ⟨by rw [List.length_take]; omega, q, h3, ?_⟩
  rw [h4]
  exact (List.take_prefix _ _).trans ((List.prefix_cons_inj _).mpr h2)

/-- a symbol seen after a context that is part of a longer one was seen after a longer one -/
theorem seen_longer (hw : ∀ w ∈ ws, ∀ x ∈ w, 0 < x) {c : List Int} (hl : (Longer order ws c).Nonempty) {y : Int}
    (ho : 0 < occurrences ws c y) : ∃ d ∈ Longer order ws c, 0 < occurrences ws d y := by
  obtain ⟨d, ⟨hd1, p, hp, hpre⟩, hd2, hd3⟩ := hl
  obtain ⟨q, h1, h2, h3⟩ := occurrences_pos.mp ho
  obtain ⟨l, hl1, hl2⟩ := (positions_ok hw p hp).1
  obtain ⟨l', hl1', hl2'⟩ := (positions_ok hw q h1).1
  have hdl : d.length = c.length + 1 := by
    have := List.length_dropLast (xs := d)
    have h0 : 0 < d.length := List.length_pos_iff.mpr hd2
    rw [hd3] at this; omega
  -- the symbols of `c` are proper
  have hcpos : ∀ x ∈ c, 0 < x := by
    have hple : c.length + 1 ≤ p.1.length := by rw [← hdl]; exact hpre.length_le
    have hcp : c <+: p.1 := by rw [← hd3]; exact (List.dropLast_prefix d).trans hpre
    have : c <+: l := by
      rw [hl1] at hcp hple
      rw [List.prefix_iff_eq_take] at hcp ⊢
      rw [hcp]
      simp only [List.length_append, List.length_singleton] at hple
      rw [List.length_take, List.take_append_of_le_length (by omega), List.length_append, List.length_singleton]
      congr 1
      omega
    intro x hx
    exact hl2 x (this.subset hx)
  -- so the beginning of the line of `q` is not part of `c`
  have hlt : c.length < q.1.length := by
    rcases Nat.lt_or_ge c.length q.1.length with h | h
    · exact h
    · exfalso
      have : c = q.1 := h2.eq_of_length (le_antisymm h2.length_le h)
      have h0 := hcpos 0 (by rw [this, hl1']; simp)
      omega
  refine ⟨q.1.take (c.length + 1), ⟨⟨?_, q, h1, List.take_prefix _ _⟩, ?_, ?_⟩, ?_⟩
  · rw [List.length_take]; omega
  · intro e
    have := congrArg List.length e
    simp only [List.length_take, List.length_nil] at this
    omega
  · rw [List.dropLast_eq_take, List.take_take, List.length_take]
    rw [show min (min (c.length + 1) q.1.length - 1) (c.length + 1) = c.length by omega]
    exact (List.prefix_iff_eq_take.mp h2).symm
  · exact occurrences_pos.mpr ⟨q, h1, List.take_prefix _ _, h3⟩

/-- the counts of the symbols add up to the occurrences of the context -/
theorem sum_occurrences {V : Nat} (hp : ∀ p ∈ positions ws, ∃ k : Nat, p.2 = (k : Int) ∧ k ≤ V) (c : List Int) :
    ∑ y ∈ Finset.range (V + 1), occurrences ws c ((y : Nat) : Int) = occurrencesAll ws c := by
  unfold occurrences occurrencesAll
  generalize positions ws = l at hp
  induction l with
  | nil => simp
  | cons p l ih =>
    have ih' := ih (fun q hq => hp q (List.mem_cons_of_mem _ hq))
    obtain ⟨k, hk, hkV⟩ := hp p (by simp)
    simp only [List.countP_cons, Finset.sum_add_distrib, ih']
    congr 1
    by_cases hc : c.isPrefixOf p.1 = true
    · simp only [hc, Bool.true_and, if_true, hk, beq_iff_eq, Nat.cast_inj]
      rw [Finset.sum_ite_eq]
      simp; omega
    · simp [hc]

end

/-! ## Sorting -/

theorem insertArc_sorted {C : Type} (a : Arc C) {l : List (Arc C)} (h : l.Pairwise fun x y => x.label ≤ y.label) :
    (insertArc a l).Pairwise fun x y => x.label ≤ y.label := by
  induction l with
  | nil => simp [insertArc]
  | cons b l ih =>
    unfold insertArc
    rw [List.pairwise_cons] at h
    by_cases hab : a.label ≤ b.label
    · rw [if_pos hab, List.pairwise_cons]
      refine ⟨?_, List.pairwise_cons.mpr h⟩
      intro x hx
      rcases List.mem_cons.mp hx with rfl | hx
      · exact hab
      · exact le_trans hab (h.1 x hx)
    · rw [if_neg hab, List.pairwise_cons]
      refine ⟨?_, ih h.2⟩
      intro x hx
      rcases List.mem_cons.mp ((insertArc_perm a l).mem_iff.mp hx) with rfl | hx
      · omega
      · exact h.1 x hx

theorem sortArcs_sorted {C : Type} : ∀ l : List (Arc C), (sortArcs l).Pairwise fun x y => x.label ≤ y.label
  | [] => List.Pairwise.nil
  | a :: l => insertArc_sorted a (sortArcs_sorted l)

theorem arcSort_get {C : Type} (f : Fst C) (s : Nat) :
    (arcSort f).states[s]? = f.states[s]?.map fun st => { st with arcs := sortArcs st.arcs } := by
  simp [arcSort]

/-! ## The counter's automaton -/

section
variable {order : Nat} {ws ctxs : List (List Int)} {f : Fst XR}

theorem Counted.sort (h : Counted order ws ctxs f) : Counted order ws ctxs (arcSort f) := by
  have hget : ∀ (s : Nat) (st : FState XR), (arcSort f).states[s]? = some st →
      ∃ st0, f.states[s]? = some st0 ∧ st.final = st0.final ∧ st.arcs = sortArcs st0.arcs := by
    intro s st hst
    rw [arcSort_get] at hst
    cases hf : f.states[s]? with
    | none => rw [hf] at hst; cases hst
    | some st0 =>
      rw [hf] at hst
      simp only [Option.map_some, Option.some.injEq] at hst
      subst hst; exact ⟨st0, rfl, rfl, rfl⟩
  refine ⟨h.nodup, h.contexts, by rw [← h.len]; simp [arcSort], h.start, ?_, ?_, ?_⟩
  · intro s c st hc hst
    obtain ⟨st0, h1, h2, h3⟩ := hget s st hst
    rw [h2]; exact h.final s c st0 hc h1
  · intro s st hst
    obtain ⟨st0, h1, h2, h3⟩ := hget s st hst
    rw [h3, (sortArcs_perm st0.arcs).nodup_iff]; exact h.arcs_nodup s st0 h1
  · intro s c st hc hst a
    obtain ⟨st0, h1, h2, h3⟩ := hget s st hst
    rw [h3, (sortArcs_perm st0.arcs).mem_iff]; exact h.arcs s c st0 hc h1 a

theorem ctxs_inj (hn : ctxs.Nodup) {i j : Nat} {c : List Int} (hi : ctxs[i]? = some c) (hj : ctxs[j]? = some c) : i = j := by
  have h1 := lt_of_getElem?_eq_some hi
  exact (List.getElem?_inj h1 hn).mp (hi.trans hj.symm)

theorem Counted.index (h : Counted order ws ctxs f) {c : List Int} (hc : IsContext order ws c) :
    ∃ (s : Nat) (st : FState XR), ctxs[s]? = some c ∧ f.states[s]? = some st := by
  obtain ⟨s, hs⟩ := List.getElem?_of_mem ((h.contexts c).mpr hc)
  obtain ⟨st, hst⟩ := exists_getElem?_of_lt (l := f.states) (i := s) (by rw [h.len]; exact lt_of_getElem?_eq_some hs)
  exact ⟨s, st, hs, hst⟩

theorem Counted.ctx (h : Counted order ws ctxs f) {s : Nat} {st : FState XR} (hst : f.states[s]? = some st) :
    ∃ c, ctxs[s]? = some c ∧ IsContext order ws c := by
  obtain ⟨c, hc⟩ := exists_getElem?_of_lt (l := ctxs) (i := s) (by rw [← h.len]; exact lt_of_getElem?_eq_some hst)
  exact ⟨c, hc, (h.contexts c).mp (List.mem_of_getElem? hc)⟩

theorem Counted.labels_nodup (h : Counted order ws ctxs f) {s : Nat} {st : FState XR} (hst : f.states[s]? = some st) :
    (st.arcs.map Arc.label).Nodup := by
  obtain ⟨c, hc, _⟩ := h.ctx hst
  refine (h.arcs_nodup s st hst).map_on ?_
  intro a ha b hb e
  have ha' := (h.arcs s c st hc hst a).mp ha
  have hb' := (h.arcs s c st hc hst b).mp hb
  obtain ⟨al, aw, an⟩ := a
  obtain ⟨bl, bw, bn⟩ := b
  simp only at e ha' hb'
  subst e
  rcases ha' with ⟨a1, a2, a3, a4⟩ | ⟨a1, a2, a3, a4⟩ <;> rcases hb' with ⟨b1, b2, b3, b4⟩ | ⟨b1, b2, b3, b4⟩
  · rw [ctxs_inj h.nodup a3 b3, a4, b4]
  · omega
  · omega
  · rw [ctxs_inj h.nodup a3 b3, a4, b4]

/-- what precedes about the automaton and the text -/
structure TextOk (order : Nat) (ws : List (List Int)) : Prop where
  order : 2 ≤ order
  labels : ∀ w ∈ ws, ∀ x ∈ w, 0 < x
  lines : ∃ w ∈ ws, w ≠ []

theorem TextOk.ne (h : TextOk order ws) : ws ≠ [] := by
  obtain ⟨w, hw, _⟩ := h.lines
  intro e; rw [e] at hw; cases hw

theorem TextOk.symbol (h : TextOk order ws) : ∃ x, 0 < x ∧ 0 < occurrences ws [] x := by
  obtain ⟨w, hw, hne⟩ := h.lines
  obtain ⟨x, hx⟩ := List.exists_mem_of_ne_nil w hne
  obtain ⟨p, hp, hpx⟩ := positionsFrom_mem (past := [0]) hx
  exact ⟨x, h.labels w hw x hx, occurrences_pos.mpr ⟨p, List.mem_flatMap.mpr ⟨w, hw, hp⟩, List.nil_prefix, hpx⟩⟩

/-- the sorted automaton: the backoff arc comes first -/
structure CountedSorted (order : Nat) (ws ctxs : List (List Int)) (f : Fst XR) : Prop extends Counted order ws ctxs f where
  sorted : ∀ (s : Nat) (st : FState XR), f.states[s]? = some st → st.arcs.Pairwise fun x y => x.label ≤ y.label

theorem Counted.sorted (h : Counted order ws ctxs f) : CountedSorted order ws ctxs (arcSort f) := by
  refine ⟨h.sort, ?_⟩
  intro s st hst
  rw [arcSort_get] at hst
  cases hf : f.states[s]? with
  | none => rw [hf] at hst; cases hst
  | some st0 =>
    rw [hf] at hst
    simp only [Option.map_some, Option.some.injEq] at hst
    subst hst; exact sortArcs_sorted _

theorem Counted.label_nonneg (h : Counted order ws ctxs f) {s : Nat} {st : FState XR} (hst : f.states[s]? = some st) :
    ∀ a ∈ st.arcs, 0 ≤ a.label := by
  intro a ha
  obtain ⟨c, hc, _⟩ := h.ctx hst
  rcases (h.arcs s c st hc hst a).mp ha with h1 | h1
  · omega
  · omega

theorem CountedSorted.eps (h : CountedSorted order ws ctxs f) {s : Nat} {st : FState XR} (hst : f.states[s]? = some st) :
    ∀ a ∈ st.arcs, a.label = 0 → st.arcs.head? = some a := by
  intro a ha h0
  have hs := h.sorted s st hst
  have hn := h.labels_nodup hst
  have hl := h.label_nonneg hst
  cases hst' : st.arcs with
  | nil => rw [hst'] at ha; cases ha
  | cons b rest =>
    rw [hst'] at ha hs hn hl
    rcases List.mem_cons.mp ha with rfl | ha
    · rfl
    · have h1 := (List.pairwise_cons.mp hs).1 a ha
      have h2 := hl b (by simp)
      rw [List.map_cons, List.nodup_cons] at hn
      exact absurd (List.mem_map.mpr ⟨a, ha, by omega⟩) hn.1

/-- the backoff arc leads to the context without its oldest symbol -/
theorem CountedSorted.backoff_iff (h : CountedSorted order ws ctxs f) {s : Nat} {c : List Int} (hc : ctxs[s]? = some c)
    (b : Nat) : backoff f s = some b ↔ c ≠ [] ∧ ctxs[b]? = some c.dropLast := by
  obtain ⟨st, hst⟩ := exists_getElem?_of_lt (l := f.states) (i := s) (by rw [h.len]; exact lt_of_getElem?_eq_some hc)
  constructor
  · intro hb
    unfold backoff at hb
    rw [hst] at hb
    simp only at hb
    cases ha : st.arcs with
    | nil => rw [ha] at hb; cases hb
    | cons a rest =>
      rw [ha] at hb
      simp only at hb
      by_cases h0 : a.label = 0
      · rw [if_pos h0] at hb
        injection hb with hb
        subst hb
        rcases (h.arcs s c st hc hst a).mp (by rw [ha]; simp) with h1 | h1
        · exact ⟨h1.2.1, h1.2.2.1⟩
        · omega
      · rw [if_neg h0] at hb; cases hb
  · rintro ⟨h1, h2⟩
    have hmem := (h.arcs s c st hc hst ⟨0, costOf (occurrencesAll ws c), b⟩).mpr (.inl ⟨rfl, h1, h2, rfl⟩)
    have hhead := h.eps hst _ hmem rfl
    unfold backoff
    rw [hst]
    simp only
    cases ha : st.arcs with
    | nil => rw [ha] at hmem; cases hmem
    | cons a rest =>
      rw [ha] at hhead
      simp only [List.head?_cons, Option.some.injEq] at hhead
      subst hhead
      simp

theorem mem_arcLabels (h : Counted order ws ctxs f) {s : Nat} {c : List Int} {st : FState XR} (hc : ctxs[s]? = some c)
    (hst : f.states[s]? = some st) {y : Int} (hy : 0 < y) : y ∈ arcLabels st ↔ 0 < occurrences ws c y := by
  unfold arcLabels
  rw [List.mem_filter, List.mem_map]
  simp only [decide_eq_true_eq]
  constructor
  · rintro ⟨⟨a, ha, rfl⟩, _⟩
    rcases (h.arcs s c st hc hst a).mp ha with h1 | h1
    · omega
    · exact h1.2.1
  · intro ho
    refine ⟨?_, hy⟩
    have hctx := (h.contexts c).mp (List.mem_of_getElem? hc)
    obtain ⟨t, _, ht, _⟩ := h.index (hctx.next (by omega) ho)
    exact ⟨⟨y, costOf (occurrences ws c y), t⟩, (h.arcs s c st hc hst _).mpr (.inr ⟨hy, ho, ht, rfl⟩), rfl⟩

theorem final_iff (h : Counted order ws ctxs f) {s : Nat} {c : List Int} {st : FState XR} (hc : ctxs[s]? = some c)
    (hst : f.states[s]? = some st) : st.final ≠ .pinf ↔ 0 < occurrences ws c 0 := by
  rw [h.final s c st hc hst, ne_eq, costOf_eq_pinf, Nat.cast_eq_zero]
  omega

theorem countP_range' {α : Type} {P : Nat → Bool} {Q : α → Bool} : ∀ (l : List α) (k : Nat),
    (∀ (i : Nat) (a : α), l[i]? = some a → P (k + i) = Q a) → (List.range' k l.length).countP P = l.countP Q := by
  intro l
  induction l with
  | nil => intro k _; rfl
  | cons a l ih =>
    intro k h
    rw [List.length_cons, List.range'_succ, List.countP_cons, List.countP_cons]
    rw [ih (k + 1) (fun i b hb => by rw [Nat.add_assoc, Nat.add_comm 1]; exact h (i + 1) b (by simpa using hb))]
    rw [← h 0 a (by simp)]; rfl

theorem ncard_of_nodup {α : Type} {l : List α} (hn : l.Nodup) (Q : α → Prop) :
    {a | a ∈ l ∧ Q a}.ncard = l.countP fun a => decide (Q a) := by
  have : {a | a ∈ l ∧ Q a} = ((l.filter fun a => decide (Q a)).toFinset : Set α) := by
    ext a; simp
  rw [this, Set.ncard_coe_finset, List.toFinset_card_of_nodup (hn.filter _), List.countP_eq_length_filter]

/-- the states that back off to a context and have a symbol are its longer contexts with that symbol -/
theorem CountedSorted.raised_eq (h : CountedSorted order ws ctxs f) {x : Nat} {c : List Int} (hc : ctxs[x]? = some c) {y : Int}
    (hy : 0 < y) : raised f 0 f.states.length x y = {d ∈ Longer order ws c | 0 < occurrences ws d y}.ncard := by
  have hset : {d ∈ Longer order ws c | 0 < occurrences ws d y} =
      {d | d ∈ ctxs ∧ (d ≠ [] ∧ d.dropLast = c ∧ 0 < occurrences ws d y)} := by
    ext d
    simp only [Longer, Set.mem_ofPred_eq, h.contexts]
    tauto
  rw [hset, ncard_of_nodup h.nodup]
  unfold Ppm.raised
  rw [h.len]
  refine countP_range' ctxs 0 fun i d hd => ?_
  rw [Nat.zero_add, decide_eq_decide, h.backoff_iff hd]
  obtain ⟨st, hst⟩ := exists_getElem?_of_lt (l := f.states) (i := i) (by rw [h.len]; exact lt_of_getElem?_eq_some hd)
  rw [hst]
  simp only [Option.some.injEq, exists_eq_left']
  rw [mem_arcLabels h.toCounted hd hst hy]
  constructor
  · rintro ⟨⟨h1, h2⟩, h3⟩
    rw [hc] at h2; injection h2 with h2
    exact ⟨h1, h2.symm, h3⟩
  · rintro ⟨h1, h2, h3⟩
    exact ⟨⟨h1, by rw [hc, h2]⟩, h3⟩

theorem CountedSorted.finalRaised_eq (h : CountedSorted order ws ctxs f) {x : Nat} {c : List Int} (hc : ctxs[x]? = some c) :
    finalRaised f 0 f.states.length x = {d ∈ Longer order ws c | 0 < occurrences ws d 0}.ncard := by
  have hset : {d ∈ Longer order ws c | 0 < occurrences ws d 0} =
      {d | d ∈ ctxs ∧ (d ≠ [] ∧ d.dropLast = c ∧ 0 < occurrences ws d 0)} := by
    ext d
    simp only [Longer, Set.mem_ofPred_eq, h.contexts]
    tauto
  rw [hset, ncard_of_nodup h.nodup]
  unfold Ppm.finalRaised
  rw [h.len]
  refine countP_range' ctxs 0 fun i d hd => ?_
  rw [Nat.zero_add, decide_eq_decide, h.backoff_iff hd]
  obtain ⟨st, hst⟩ := exists_getElem?_of_lt (l := f.states) (i := i) (by rw [h.len]; exact lt_of_getElem?_eq_some hd)
  rw [hst]
  simp only [Option.some.injEq, exists_eq_left']
  rw [final_iff h.toCounted hd hst]
  constructor
  · rintro ⟨⟨h1, h2⟩, h3⟩
    rw [hc] at h2; injection h2 with h2
    exact ⟨h1, h2.symm, h3⟩
  · rintro ⟨h1, h2, h3⟩
    exact ⟨⟨h1, by rw [hc, h2]⟩, h3⟩

theorem CountedSorted.backedOff (h : CountedSorted order ws ctxs f) {x : Nat} {c : List Int} (hc : ctxs[x]? = some c) :
    BackedOff f x ↔ (Longer order ws c).Nonempty := by
  constructor
  · rintro ⟨s, hs⟩
    obtain ⟨st, hst⟩ := exists_getElem?_of_lt (backoff_lt hs)
    obtain ⟨d, hd, hctx⟩ := h.ctx hst
    obtain ⟨h1, h2⟩ := (h.backoff_iff hd x).mp hs
    rw [hc] at h2; injection h2 with h2
    exact ⟨d, hctx, h1, h2.symm⟩
  · rintro ⟨d, hctx, h1, h2⟩
    obtain ⟨s, st, hs, hst⟩ := h.index hctx
    exact ⟨s, (h.backoff_iff hs x).mpr ⟨h1, by rw [hc, h2]⟩⟩

theorem longer_finite (h : Counted order ws ctxs f) (c : List Int) : (Longer order ws c).Finite :=
  (List.finite_toSet ctxs).subset fun d hd => (h.contexts d).mpr hd.1

theorem ncard_pos_iff (h : Counted order ws ctxs f) (c : List Int) (y : Int) :
    0 < {d ∈ Longer order ws c | 0 < occurrences ws d y}.ncard ↔ ∃ d ∈ Longer order ws c, 0 < occurrences ws d y := by
  rw [Set.ncard_pos ((longer_finite h c).subset fun d hd => hd.1)]
  rfl

/-- the counter's automaton, sorted, is what the computation of exclusions needs -/
theorem CountedSorted.countable (h : CountedSorted order ws ctxs f) (ht : TextOk order ws) : Countable f := by
  have hroot : ∀ c, IsContext order ws c → c ≠ [] → IsContext order ws c.dropLast :=
    fun c hc _ => hc.prefix (List.dropLast_prefix c)
  refine ⟨⟨?_, ?_⟩, ?_, ?_, ?_, ?_, ?_⟩
  · intro s st hst hnil
    obtain ⟨c, hc, hctx⟩ := h.ctx hst
    by_cases h0 : c = []
    · obtain ⟨x, hx1, hx2⟩ := ht.symbol
      subst h0
      obtain ⟨t, _, ht', _⟩ := h.index (hctx.next (by omega) hx2)
      have := (h.arcs s [] st hc hst ⟨x, costOf (occurrences ws [] x), t⟩).mpr (.inr ⟨hx1, hx2, ht', rfl⟩)
      rw [hnil] at this; cases this
    · obtain ⟨t, _, ht', _⟩ := h.index (hroot c hctx h0)
      have := (h.arcs s c st hc hst ⟨0, costOf (occurrencesAll ws c), t⟩).mpr (.inl ⟨rfl, h0, ht', rfl⟩)
      rw [hnil] at this; cases this
  · intro s b hb
    obtain ⟨st, hst⟩ := exists_getElem?_of_lt (backoff_lt hb)
    obtain ⟨c, hc, _⟩ := h.ctx hst
    rw [h.len]
    exact lt_of_getElem?_eq_some ((h.backoff_iff hc b).mp hb).2
  · exact fun s st hst => h.label_nonneg hst
  · exact fun s st hst => h.labels_nodup hst
  · exact fun s st hst => h.eps hst
  · intro x st hb hst a ha hl
    obtain ⟨c, hc, _⟩ := h.ctx hst
    rw [h.raised_eq hc hl, ncard_pos_iff h.toCounted]
    rcases (h.arcs x c st hc hst a).mp ha with h1 | h1
    · omega
    · exact seen_longer ht.labels ((h.backedOff hc).mp hb) h1.2.1
  · intro x st hb hst
    obtain ⟨c, hc, hctx⟩ := h.ctx hst
    obtain ⟨_, p, hp, hpre⟩ := hctx
    rcases (positions_ok ht.labels p hp).2 with h0 | ⟨w, hw, hx⟩
    · right
      have : 0 < occurrences ws c 0 := occurrences_pos.mpr ⟨p, hp, hpre, h0⟩
      refine ⟨(final_iff h.toCounted hc hst).mpr this, ?_⟩
      rw [h.finalRaised_eq hc, ncard_pos_iff h.toCounted]
      exact seen_longer ht.labels ((h.backedOff hc).mp hb) this
    · left
      have hpos := ht.labels w hw _ hx
      have ho : 0 < occurrences ws c p.2 := occurrences_pos.mpr ⟨p, hp, hpre, rfl⟩
      have := (mem_arcLabels h.toCounted hc hst hpos).mpr ho
      unfold arcLabels at this
      obtain ⟨h1, _⟩ := List.mem_filter.mp this
      obtain ⟨a, ha, hal⟩ := List.mem_map.mp h1
      exact ⟨a, ha, by rw [hal]; exact hpos⟩

end
end Mozolm.Ppm
