import Verif.Word.Marginals

/-! # The answer of `ExtractLMScores` in terms of probabilities -/

namespace Mozolm.Word
open XR NGram

/-- The list of symbols and masses before renormalising. -/
structure Split (t : SymbolTable) (oov : Int) (Pl : Int → ℝ) (p : Str) (F fn total : ℝ)
    (L : List (Str × ℝ)) : Prop where
  nodup : (L.map Prod.fst).Nodup
  letter : ∀ (c : Nat) m, c ≠ 32 → (([c], m) ∈ L ↔ Starts t oov (p ++ [c]) ∧ m = mass t oov Pl (p ++ [c]))
  space : ∀ m, ([32], m) ∈ L ↔ ∃ l, IsWord t oov l p ∧ m = Pl l * (1 - fn)
  stop : ∀ m, ([], m) ∈ L ↔ (p = [] ∧ 0 < F ∧ m = F) ∨ (∃ l, IsWord t oov l p ∧ 0 < fn ∧ m = Pl l * fn)
  single : ∀ x ∈ L, x.1 = [] ∨ ∃ c : Nat, x.1 = [c]
  sum : (L.map Prod.snd).sum = total
  nonneg : ∀ x ∈ L, 0 ≤ x.2

variable {M : Static XR} {W : List Str} {I : Implicit} {V : Int → List XR} {q : Nat} {F : ℝ}

theorem softmax_split {L : List (Str × ℝ)} {total : ℝ} (hs : (L.map Prod.snd).sum = total)
    (h0 : ∀ x ∈ L, 0 ≤ x.2) (ht : 0 < total) :
    Scores.softmaxRenormalize Arith.xr (L.map fun x => costOf x.2) =
      .ok (L.map fun x => costOf (x.2 / total)) := by
  have := Scores.softmax_costOf (l := L.map Prod.snd) (by
    intro q hq
    obtain ⟨x, hx, rfl⟩ := List.mem_map.1 hq
    exact h0 x hx) (by rw [hs]; exact ht)
  rw [hs] at this
  simpa [List.map_map, Function.comp_def] using this

theorem extract_answer {x : Info} {chars : List Str} {ends : List Int} {s : Int} {fuel : Nat}
    {L : List (Str × ℝ)} {total : ℝ} (hs : s ≠ -1) (hce : getNextCharEnds M I s = .ok (chars, ends))
    (hne : ends ≠ []) (hx : info I s = .ok (some x)) (hb : 1 ≤ x.beginIndex)
    (hraw : pureRaw Arith.xr fuel V M s x.modelState x.beginIndex chars ends =
      .ok ⟨L.map Prod.fst, L.map fun x => costOf x.2⟩)
    (hsum : (L.map Prod.snd).sum = total) (h0 : ∀ x ∈ L, 0 ≤ x.2) (ht : 0 < total) :
    pureExtract Arith.xr fuel V M I s (noScores Arith.xr) = .ok (true,
      { symbols := L.map Prod.fst, probs := L.map fun x => .fin (x.2 / total), norm := .fin 1 }) := by
  simp only [pureExtract, checkCurrentState, if_neg hs, hce, ok_bind]
  cases ends with
  | nil => exact absurd rfl hne
  | cons e es =>
    simp only [hx, ok_bind, if_neg (show ¬ (x.beginIndex < 1) by omega)]
    rw [hraw, ok_bind]
    simp only
    rw [softmax_split hsum h0 ht, ok_bind]
    simp only [noScores, List.nil_append, List.map_map]
    congr 3
    · apply List.map_congr_left
      intro y hy
      exact expNeg_costOf (div_nonneg (h0 y hy) ht.le)
    · simp

/-- The answer at every place inside or before a word. -/
theorem answer (hr : Ready M W) {u : Nat} (hf : Fit (A := Arith.xr) M u)
    (hW : W = sortedWords M.base.symbols M.base.oov) (hi : Inv M W I)
    (hn : W.length < M.tables.order.length) {fuel : Nat} (hfu : Enough (A := Arith.xr) M.base.fst fuel)
    {p : Str} {s : Int} (hs : Stands M I s (.word q p)) {P : Nat → ℝ}
    (hC : Cumul M.base.fst M.base.symbols W M.tables.order.length q (V q) F P) {Pl : Int → ℝ}
    (hP : ∀ l w, IsWord M.base.symbols M.base.oov l w → WordProb M.base.fst l q (Pl l)) {fn : ℝ}
    (hfn : ∀ l d, IsWord M.base.symbols M.base.oov l p → AfterWord (A := Arith.xr) M.base.fst u q l d →
      EndProb M.base.fst d fn) (h1 : fn ≤ 1) {total : ℝ}
    (ht : total = mass M.base.symbols M.base.oov Pl p + if p = [] then F else 0) (h0 : 0 < total) :
    ∃ L, pureExtract Arith.xr fuel V M I s (noScores Arith.xr) = .ok (true,
        { symbols := L.map Prod.fst, probs := L.map fun x => .fin (x.2 / total), norm := .fin 1 }) ∧
      Split M.base.symbols M.base.oov Pl p F fn total L := by
  have hv := hf.vocabulary
  have hd := hv.dense
  have hnoempty : ∀ l, ¬ IsWord M.base.symbols M.base.oov l [] := fun l h => (hv.words l _ h).1 rfl
  by_cases hp : p = []
  · subst hp
    obtain ⟨rfl, hq⟩ := hs
    obtain ⟨L, e1, e2, hL⟩ := letters hr hv hW hC hq hn hP (p := []) (pre := []) (seg := W) (post := [])
      (chars := M.tables.firstChars) (ends := M.tables.firstEnds) (by simp) (by simp) (by simp) (by simp)
      hr.first
    have hWne : W ≠ [] := by rw [hW]; exact hv.words_ne
    obtain ⟨hcne, hcl⟩ := hr.first.ne_nil hWne
    have hene : M.tables.firstEnds ≠ [] := by
      intro h; rw [h] at hcl; exact hcne (List.length_eq_zero_iff.1 (by simpa using hcl))
    have hlt : (q : Int) < M.base.fst.states.length := by omega
    have hinfo : info I (q : Int) = .ok (some ⟨q, 0, 1, W.length⟩) := by
      rw [← hi.explicit] at hlt
      simp only [info, if_pos hlt, hi.eb, hi.ee]
    have hce : getNextCharEnds M I (q : Int) = .ok (M.tables.firstChars, M.tables.firstEnds) := by
      simp only [getNextCharEnds, if_pos hlt]
    have hF0 : 0 ≤ F := hC.fin.nonneg
    have hcum : cumAt Arith.xr (V q) 0 = costOf F := by
      have := cumAt_val hC (i := 0) (by omega)
      simpa using this
    rw [if_pos rfl] at ht
    have h32 : ∀ m, ([32], m) ∉ L := fun m hm => by
      obtain ⟨l, hl, _⟩ := (hL.space m).1 hm; exact hnoempty l hl
    have hempty : ∀ m, ([], m) ∉ L := fun m hm => by
      obtain ⟨c, hc⟩ := hL.single _ hm; cases hc
    have hc0 : ∀ c0 rest, M.tables.firstChars = c0 :: rest → c0 ≠ [32] := by
      intro c0 rest h h'
      rw [e1] at h
      cases L with
      | nil => cases h
      | cons y L =>
        simp only [List.map_cons, List.cons.injEq] at h
        apply h32 y.2
        rw [← h', ← h.1]
        simp
    cases hcs : M.tables.firstChars with
    | nil => exact absurd hcs hcne
    | cons c0 rest =>
      have hne32 := hc0 c0 rest hcs
      by_cases hF : F = 0
      · refine ⟨L, extract_answer (by omega) hce hene hinfo (by simp) ?_ (by rw [hL.sum, ht, hF, add_zero])
          hL.nonneg h0, hL.nodup, hL.letter, ?_, ?_, fun x hx => .inr (hL.single x hx),
          by rw [hL.sum, ht, hF, add_zero], hL.nonneg⟩
        · rw [hcs] at e1 ⊢
          simp only [pureRaw, if_neg hne32]
          rw [if_neg (by rw [hcum, hF, costOf_zero]; simp), e1]
          simp only [List.length_nil, Nat.zero_add, Nat.cast_one] at e2
          rw [e2]
        · intro m
          exact ⟨fun h => absurd h (h32 m), fun ⟨l, hl, _⟩ => absurd hl (hnoempty l)⟩
        · intro m
          refine ⟨fun h => absurd h (hempty m), ?_⟩
          rintro (⟨_, h, _⟩ | ⟨l, hl, _⟩)
          · rw [hF] at h; exact absurd h (lt_irrefl _)
          · exact absurd hl (hnoempty l)
      · have hFp : 0 < F := lt_of_le_of_ne hF0 (Ne.symm hF)
        have hsum : ((([], F) :: L).map Prod.snd).sum = total := by
          simp only [List.map_cons, List.sum_cons]
          rw [hL.sum, ht, add_comm]
        have hnn : ∀ x ∈ (([], F) :: L), 0 ≤ x.2 := by
          intro x hx
          rcases List.mem_cons.1 hx with rfl | hx
          · exact hF0
          · exact hL.nonneg x hx
        refine ⟨([], F) :: L, extract_answer (by omega) hce hene hinfo (by simp) ?_ hsum hnn h0, ?_, ?_, ?_, ?_,
          ?_, hsum, hnn⟩
        · rw [hcs] at e1 ⊢
          simp only [pureRaw, if_neg hne32]
          rw [if_pos (by rw [hcum]; simpa [costOf_eq_pinf] using hF), e1, hcum]
          simp only [List.length_nil, Nat.zero_add, Nat.cast_one] at e2
          rw [e2]
          simp
        · simp only [List.map_cons, List.nodup_cons]
          refine ⟨?_, hL.nodup⟩
          intro h
          obtain ⟨x, hx, hxe⟩ := List.mem_map.1 h
          exact hempty x.2 (by rw [← hxe]; exact hx)
        · intro c m hc
          simp only [List.mem_cons, Prod.mk.injEq, List.cons_ne_self, false_and, false_or]
          exact hL.letter c m hc
        · intro m
          simp only [List.mem_cons, Prod.mk.injEq, false_and, false_or, reduceCtorEq]
          exact ⟨fun h => absurd h (h32 m), fun ⟨l, hl, _⟩ => absurd hl (hnoempty l)⟩
        · intro m
          simp only [List.mem_cons, Prod.mk.injEq, true_and, hempty m, or_false]
          constructor
          · rintro rfl; exact .inl ⟨hFp, rfl⟩
          · rintro (⟨_, h⟩ | ⟨l, hl, _⟩)
            · exact h
            · exact absurd hl (hnoempty l)
        · intro x hx
          rcases List.mem_cons.1 hx with rfl | hx
          · exact .inl rfl
          · exact .inr (hL.single x hx)
  · obtain ⟨i, b, e, rfl, hx, hR, hq⟩ := range_of_stands (A := Arith.xr) hr hv hW hi hp hs
    obtain ⟨pre, w, rest, post, chars, ends, a1, a2, a3, a4, a5, a6, a7⟩ :=
      charEndsImplicit_ok (A := Arith.xr) (x := ⟨q, p.length, b, e⟩) hr rfl hR
    simp only at a5
    have hinfo := info_stored hi.wf hx
    have hlt : ¬ (I.explicit + (i : Int) < M.base.fst.states.length) := by rw [hi.explicit]; omega
    have hb0 : ¬ (b < 0) := by omega
    have hce : getNextCharEnds M I (I.explicit + i) = .ok (keyChar w[p.length]? :: chars, ends) := by
      simp only [getNextCharEnds, if_neg hlt, hinfo, ok_bind, if_neg hb0, a6]
    obtain ⟨hcne, hcl⟩ := a7.ne_nil (by simp)
    have hene : ends ≠ [] := by
      intro h; rw [h] at hcl; simp at hcl
    obtain ⟨L, e1, e2, hL⟩ := letters hr hv hW hC hq hn hP (p := p) (pre := pre) (seg := w :: rest)
      (post := post) (by rw [a1]; simp) a2 a3 a4 a7
    have hs1 : I.explicit + (i : Int) ≠ -1 := by rw [hi.explicit]; omega
    rw [if_neg hp, add_zero] at ht
    have hempty : ∀ m, ([], m) ∉ L := fun m hm => by
      obtain ⟨c, hc⟩ := hL.single _ hm; cases hc
    have hWw : W[pre.length]? = some w := by rw [a1]; simp
    have hwm : w ∈ W := List.mem_of_getElem? hWw
    have hpw : p <+: w := a2 w (by simp)
    have hcur : ¬ ((q : Int) = I.explicit + i) := by rw [hi.explicit]; omega
    by_cases hw : w[p.length]? = none
    · -- the prefix is a word
      have hwp : w = p := prefix_end_iff.1 ⟨hpw, hw⟩
      subst hwp
      obtain ⟨l, hl, hl0, hlo⟩ := Ready.label (A := Arith.xr) hr hv hW hWw
      obtain ⟨d, d1, d2, d3, d4⟩ := nextModelState_after (A := Arith.xr) hf.closed hfu hf.unigram.2 hl0 hq
      have hEnd := hfn l d hl d3
      have hfin : getBackedoffFinalCost Arith.xr fuel M d = .ok (costOf fn) := by
        have hdn : ¬ ((d : Int) < 0 ∨ (d : Int) > M.base.fst.states.length) := by omega
        simp only [getBackedoffFinalCost, if_neg hdn]
        obtain ⟨rank, hrk, hle⟩ := hfu
        obtain ⟨y, hy⟩ := backedoffFinal_ok (A := Arith.xr) hf.closed hrk fuel d Arith.xr.one
          (by have := hle d d1; omega) d1
        rw [hy]
        have := backedoffFinal_cost hEnd fuel 1 y zero_le_one (by rw [costOf_one]; exact hy)
        rw [this, one_mul]
      have hfn0 := hEnd.nonneg
      rw [hw] at e1 hce
      have hPl : 0 ≤ Pl l := (hP l w hl).nonneg
      have huniq : ∀ {l'}, IsWord M.base.symbols M.base.oov l' w → l' = l := fun h =>
        h.unique_label hd hl
      cases ends with
      | nil => exact absurd rfl hene
      | cons e0 es =>
        cases L with
        | nil => cases e1
        | cons y L =>
          simp only [List.map_cons, List.cons.injEq] at e1
          obtain ⟨hy1, hy2⟩ := e1
          obtain ⟨y1, y2⟩ := y
          simp only [keyChar] at hy1
          subst hy1
          simp only [pureRanges, List.map_cons, List.cons.injEq] at e2
          obtain ⟨hr1, hr2⟩ := e2
          have hy2' : y2 = Pl l := by
            obtain ⟨l', hl', rfl⟩ := (hL.space y2).1 (by simp)
            rw [huniq hl']
          subst hy2'
          have hnd := hL.nodup
          simp only [List.map_cons, List.nodup_cons] at hnd
          have h32 : ∀ m, ([32], m) ∉ L := fun m hm => hnd.1 (List.mem_map.2 ⟨_, hm, rfl⟩)
          have hempty' : ∀ m, ([], m) ∉ L := fun m hm => hempty m (by simp [hm])
          have hbi : b = (pre.length : Int) + 1 := by omega
          have hsum0 : Pl l + (L.map Prod.snd).sum = total := by
            have := hL.sum
            simp only [List.map_cons, List.sum_cons] at this
            rw [this, ht]
          have hletter : ∀ (c : Nat) m, c ≠ 32 → (([c], m) ∈ L ↔
              Starts M.base.symbols M.base.oov (w ++ [c]) ∧ m = mass M.base.symbols M.base.oov Pl (w ++ [c])) := by
            intro c m hc
            rw [← hL.letter c m hc]
            simp only [List.mem_cons, Prod.mk.injEq, List.cons.injEq, and_true]
            constructor
            · exact .inr
            · rintro (⟨h, _⟩ | h)
              · exact absurd h hc
              · exact h
          by_cases hfz : fn = 0
          · subst hfz
            have hsum : (((([32] : Str), Pl l) :: L).map Prod.snd).sum = total := by simpa using hsum0
            refine ⟨([32], Pl l) :: L, extract_answer hs1 hce (by simp) hinfo (by simp only; omega) ?_ hsum
              hL.nonneg h0, hL.nodup, hL.letter, ?_, ?_, fun x hx => .inr (hL.single x hx), hsum, hL.nonneg⟩
            · simp only [pureRaw, keyChar, if_true]
              rw [hbi, hlo, ok_bind, hf.unigram.1, d2, ok_bind, hfin, ok_bind]
              rw [if_neg (by simp [costOf_eq_pinf])]
              simp only [pureRanges]
              rw [show (pre.length : Int) + 1 = ((pre.length + 1 : Nat) : Int) by omega, hr1, hr2, hy2]
              simp
            · intro m
              rw [hL.space]
              simp only [sub_zero, mul_one]
            · intro m
              refine ⟨fun h => absurd h (hempty m), ?_⟩
              rintro (⟨h, _⟩ | ⟨_, _, h, _⟩)
              · exact absurd h hp
              · exact absurd h (lt_irrefl _)
          · have hfp : 0 < fn := lt_of_le_of_ne hfn0 (Ne.symm hfz)
            have hsum : ((([32], Pl l * (1 - fn)) :: ([], Pl l * fn) :: L : List (Str × ℝ)).map Prod.snd).sum =
                total := by
              simp only [List.map_cons, List.sum_cons]
              rw [← hsum0]; ring
            have hnn : ∀ x ∈ (([32], Pl l * (1 - fn)) :: ([], Pl l * fn) :: L : List (Str × ℝ)), 0 ≤ x.2 := by
              intro x hx
              simp only [List.mem_cons] at hx
              rcases hx with rfl | rfl | hx
              · exact mul_nonneg hPl (by linarith)
              · exact mul_nonneg hPl hfn0
              · exact hL.nonneg x (by simp [hx])
            refine ⟨([32], Pl l * (1 - fn)) :: ([], Pl l * fn) :: L,
              extract_answer hs1 hce (by simp) hinfo (by simp only; omega) ?_ hsum hnn h0, ?_, ?_, ?_, ?_, ?_, hsum,
              hnn⟩
            · simp only [pureRaw, keyChar, if_true]
              rw [hbi, hlo, ok_bind, hf.unigram.1, d2, ok_bind, hfin, ok_bind]
              rw [if_pos (by simpa [costOf_eq_pinf] using hfz)]
              rw [show (pre.length : Int) + 1 = ((pre.length + 1 : Nat) : Int) by omega, hr1, hr2, hy2]
              have hsd : safeNegLogDiff Arith.xr (.fin 0) (costOf fn) = costOf (1 - fn) := by
                rw [← costOf_one]
                have := safeNegLogDiff_costOf (x := fn) (r := 1 - fn) hfn0 (by linarith)
                rwa [show fn + (1 - fn) = 1 by ring] at this
              rw [hsd, add_costOf hPl (by linarith), add_costOf hPl hfn0]
              simp
            · simp only [List.map_cons, List.nodup_cons, List.mem_cons, not_or]
              refine ⟨⟨by simp, hnd.1⟩, ?_, hnd.2⟩
              intro h
              obtain ⟨x, hx', hxe⟩ := List.mem_map.1 h
              exact hempty' x.2 (by rw [← hxe]; exact hx')
            · intro c m hc
              rw [← hletter c m hc]
              simp [hc]
            · intro m
              simp only [List.mem_cons, Prod.mk.injEq, true_and, reduceCtorEq, false_and, h32 m, or_false]
              constructor
              · rintro rfl; exact ⟨l, hl, rfl⟩
              · rintro ⟨l', hl', rfl⟩; rw [huniq hl']
            · intro m
              simp only [List.mem_cons, Prod.mk.injEq, true_and, reduceCtorEq, false_and, false_or, hempty' m,
                or_false, hp]
              constructor
              · rintro rfl; exact ⟨l, hl, hfp, rfl⟩
              · rintro ⟨l', hl', _, rfl⟩; rw [huniq hl']
            · intro x hx'
              simp only [List.mem_cons] at hx'
              rcases hx' with rfl | rfl | hx'
              · exact .inr ⟨32, rfl⟩
              · exact .inl rfl
              · exact .inr (hL.single x (by simp [hx']))
    · -- it is not
      have hpW : ∀ l, ¬ IsWord M.base.symbols M.base.oov l p := by
        intro l hl
        obtain ⟨j, hj, hbj⟩ := first_is_word (A := Arith.xr) hr hR (by rw [hW]; exact hd.mem_words.2 ⟨l, hl⟩)
        have : j = pre.length := by omega
        subst this
        rw [hWw] at hj; cases hj
        exact hw (List.getElem?_eq_none (Nat.le_refl _))
      have hk : keyChar w[p.length]? ≠ [32] := by
        cases hwc : w[p.length]? with
        | none => exact absurd hwc hw
        | some c =>
          simp only [keyChar, ne_eq, List.cons.injEq, and_true]
          rintro rfl
          exact (hr.words w hwm).2 (List.mem_of_getElem? hwc)
      refine ⟨L, extract_answer hs1 hce hene hinfo (by simp only; omega) ?_ (by rw [hL.sum, ht]) hL.nonneg h0,
        hL.nodup, hL.letter, ?_, ?_, fun x hx => .inr (hL.single x hx), by rw [hL.sum, ht], hL.nonneg⟩
      · simp only [pureRaw, if_neg hk, hcur, false_and, if_false]
        rw [a5, e2, e1]
      · intro m
        rw [hL.space]
        exact ⟨fun ⟨l, hl, _⟩ => absurd hl (hpW l), fun ⟨l, hl, _⟩ => absurd hl (hpW l)⟩
      · intro m
        refine ⟨fun h => absurd h (hempty m), ?_⟩
        rintro (⟨h, _⟩ | ⟨l, hl, _⟩)
        · exact absurd h hp
        · exact absurd hl (hpW l)

end Mozolm.Word
