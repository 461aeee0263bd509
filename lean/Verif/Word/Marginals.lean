import Verif.Word.Weights

/-! # Scores of the next characters as sums of probabilities -/

namespace Mozolm.Word
open XR NGram

/-! ## Costs of ranges -/

theorem sum_segment {P : Nat → ℝ} {Q : Str → ℝ} : ∀ (g : List Str) (k : Nat),
    (∀ (i : Nat) w, g[i]? = some w → P (k + i) = Q w) →
    ∑ j ∈ Finset.range (k + g.length), P j = (∑ j ∈ Finset.range k, P j) + (g.map Q).sum := by
  intro g
  induction g with
  | nil => intro k _; simp
  | cons w g ih =>
    intro k h
    have h0 : P k = Q w := by have := h 0 w (by simp); simpa using this
    have := ih (k + 1) (fun i v hv => by
      have := h (i + 1) v (by simpa using hv)
      rw [← this]; congr 1; omega)
    rw [List.length_cons, show k + (g.length + 1) = k + 1 + g.length by omega, this, Finset.sum_range_succ, h0]
    simp [add_assoc]

variable {M : Static XR} {W : List Str} {V : Int → List XR} {q : Nat} {F : ℝ} {P : Nat → ℝ}

theorem cumAt_val {t : SymbolTable} {n : Nat} (hC : Cumul M.base.fst t W n q (V q) F P) {i : Nat} (hi : i < n) :
    cumAt Arith.xr (V q) (i : Int) = costOf (F + ∑ j ∈ Finset.range i, P j) := by
  have := hC.val i hi
  simp only [cumAt, Int.toNat_natCast, this]
  rw [if_neg (by omega)]

/-- The cost of a range of words. -/
theorem pureRange_sum {t : SymbolTable} (hC : Cumul M.base.fst t W M.tables.order.length q (V q) F P)
    (hq : q < M.base.fst.states.length) (hn : W.length < M.tables.order.length) {Q : Str → ℝ}
    (hQ : ∀ (j : Nat) w, W[j]? = some w → P j = Q w) {pre g post : List Str} (hW : W = pre ++ (g ++ post))
    (hg : g ≠ []) {b e : Int} (hb : b = (pre.length : Int) + 1) (he : e = (pre.length : Int) + g.length) :
    pureRange Arith.xr V M q b e = costOf (g.map Q).sum := by
  have hgl := List.length_pos_of_ne_nil hg
  have hWl : W.length = pre.length + (g.length + post.length) := by rw [hW]; simp
  have hcond : ¬ ((q : Int) < 0 ∨ (q : Int) > M.base.fst.states.length ∨ b < 1 ∨ b > e ∨
      e ≥ M.tables.order.length) := by omega
  simp only [pureRange, if_neg hcond]
  rw [show e = ((pre.length + g.length : Nat) : Int) by omega, show b - 1 = ((pre.length : Nat) : Int) by omega,
    cumAt_val hC (by omega), cumAt_val hC (by omega)]
  have hseg : ∀ (i : Nat) w, g[i]? = some w → P (pre.length + i) = Q w := by
    intro i w hi
    apply hQ
    rw [hW, List.getElem?_append_right (by omega), List.getElem?_append_left]
    · rw [show pre.length + i - pre.length = i by omega]; exact hi
    · have := lt_of_getElem?_eq_some hi; omega
  have hsum := sum_segment g pre.length hseg
  have h0 : 0 ≤ (g.map Q).sum := by
    apply List.sum_nonneg
    intro x hx
    obtain ⟨w, hw, rfl⟩ := List.mem_map.1 hx
    obtain ⟨i, hi⟩ := List.getElem?_of_mem hw
    rw [← hseg i w hi]
    exact hC.nonneg _
  rw [hsum, ← add_assoc]
  exact safeNegLogDiff_costOf (add_nonneg hC.fin.nonneg (Finset.sum_nonneg fun j _ => hC.nonneg j)) h0

/-- The groups of words with the same next character: characters and costs. -/
theorem groups_scores {t : SymbolTable} (hC : Cumul M.base.fst t W M.tables.order.length q (V q) F P)
    (hq : q < M.base.fst.states.length) (hn : W.length < M.tables.order.length) {Q : Str → ℝ}
    (hQ : ∀ (j : Nat) w, W[j]? = some w → P j = Q w) {k b : Nat} {ws chars : List Str} {ends : List Int}
    (h : Groups k b ws chars ends) : ∀ (pre post : List Str), W = pre ++ (ws ++ post) → b = pre.length + 1 →
    ∃ L : List (Option Nat × ℝ), chars = L.map (fun x => keyChar x.1) ∧
      pureRanges Arith.xr V M q ends (b : Int) = L.map (fun x => costOf x.2) ∧ (L.map Prod.fst).Nodup ∧
      (∀ x ∈ L, (∃ w ∈ ws, w[k]? = x.1) ∧ x.2 = ((ws.filter fun w => w[k]? = x.1).map Q).sum) ∧
      (∀ w ∈ ws, w[k]? ∈ L.map Prod.fst) ∧ (L.map Prod.snd).sum = (ws.map Q).sum := by
  induction h with
  | nil b => intro pre post _ _; exact ⟨[], by simp [pureRanges]⟩
  | @cons b g rest key chars ends hg hkey hrest _ ih =>
    intro pre post hW hb
    obtain ⟨L, e1, e2, e3, e4, e5, e6⟩ := ih (pre ++ g) post (by rw [hW]; simp) (by simp; omega)
    have hnot : key ∉ L.map Prod.fst := by
      intro hm
      obtain ⟨x, hx, rfl⟩ := List.mem_map.1 hm
      obtain ⟨w, hw, hwk⟩ := (e4 x hx).1
      exact hrest w hw hwk
    refine ⟨(key, (g.map Q).sum) :: L, by simp [e1], ?_, by simp [hnot, e3], ?_, ?_, by simp [e6]⟩
    · simp only [pureRanges, List.map_cons]
      rw [pureRange_sum hC hq hn hQ (pre := pre) (g := g) (post := rest ++ post) (by rw [hW]; simp) hg
        (by omega) (by omega)]
      rw [show (((b + g.length : Nat) : Int) - 1 + 1) = ((b + g.length : Nat) : Int) by omega, e2]
    · intro x hx
      rcases List.mem_cons.1 hx with rfl | hx
      · obtain ⟨w, hw⟩ := List.exists_mem_of_ne_nil g hg
        refine ⟨⟨w, by simp [hw], hkey w hw⟩, ?_⟩
        simp only
        rw [List.filter_append, List.filter_eq_self.2 (by simpa using hkey),
          List.filter_eq_nil_iff.2 (by simpa using hrest), List.append_nil]
      · obtain ⟨⟨w, hw, hwk⟩, e⟩ := e4 x hx
        refine ⟨⟨w, by simp [hw], hwk⟩, ?_⟩
        have hgn : g.filter (fun w => w[k]? = x.1) = [] := by
          rw [List.filter_eq_nil_iff]
          intro v hv
          simp only [decide_eq_true_eq]
          intro hvk
          apply hnot
          rw [← hkey v hv, hvk]
          exact List.mem_map_of_mem hx
        rw [e, List.filter_append, hgn, List.nil_append]
    · intro w hw
      rcases List.mem_append.1 hw with hw | hw
      · simp [hkey w hw]
      · simp only [List.map_cons, List.mem_cons]
        exact .inr (e5 w hw)

/-! ## The end of the text -/

theorem backedoffFinal_cost {f : Fst XR} {d : Nat} {p : ℝ} (h : EndProb f d p) :
    ∀ (n : Nat) (a : ℝ) (x : XR), 0 ≤ a → backedoffFinal Arith.xr f n d (costOf a) = .ok x →
    x = costOf (a * p) := by
  have lt : ∀ {q : Nat} {st : FState XR}, f.states[q]? = some st → q < f.states.length :=
    fun h => lt_of_getElem?_eq_some h
  induction h with
  | @final q st p hst hp hfin =>
    intro n a x ha he
    cases n with
    | zero => cases he
    | succ n =>
      have hne : ¬ ((q : Int) = -1) := by omega
      simp only [backedoffFinal, if_neg hne, state?_nat, hst, hfin] at he
      have hni : st.final ≠ pinf := by
        rw [hfin]; exact fun h => hp.ne' (costOf_eq_pinf.1 h)
      rw [if_pos (by simpa using hni)] at he
      cases he
      exact add_costOf ha hp.le
  | @back q t st b p hst hfin hb hbo _ ih =>
    intro n a x ha he
    cases n with
    | zero => cases he
    | succ n =>
      have hne : ¬ ((q : Int) = -1) := by omega
      simp only [backedoffFinal, if_neg hne, state?_nat, hst, hfin] at he
      rw [if_neg (by simp)] at he
      rcases getBackoff_spec (A := Arith.xr) f (lt hst) with ⟨b', t', hb', e⟩ | ⟨hno, _⟩
      · obtain ⟨e1, e2⟩ := hbo.unique hb'
        subst e1; subst e2
        rw [e, ok_bind] at he
        have hne' : ¬ ((t : Int) = -1) := by omega
        simp only [if_neg hne'] at he
        have := ih n (a * b) x (mul_nonneg ha hb) (by rw [← add_costOf ha hb]; exact he)
        rw [this, mul_assoc]
      · exact absurd hbo (hno _ _)
  | @none q st hst hfin hno =>
    intro n a x ha he
    cases n with
    | zero => cases he
    | succ n =>
      have hne : ¬ ((q : Int) = -1) := by omega
      simp only [backedoffFinal, if_neg hne, state?_nat, hst, hfin] at he
      rw [if_neg (by simp)] at he
      rcases getBackoff_spec (A := Arith.xr) f (lt hst) with ⟨b', t', hb', e⟩ | ⟨_, e⟩
      · exact absurd hb' (hno _ _)
      · rw [e, ok_bind] at he
        cases n with
        | zero => cases he
        | succ n =>
          simp only [if_true, backedoffFinal] at he
          cases he
          rw [mul_zero, costOf_zero]

/-! ## Masses -/

theorem mass_eq {t : SymbolTable} {oov : Int} (hd : Dense t) (Pl : Int → ℝ) (p : Str) :
    mass t oov Pl p = (((sortedWords t oov).filter fun w => p <+: w).map fun w => Pl (t.findLabel w)).sum := by
  have hperm : ((t.filter fun e => e.1 ≠ 0 ∧ e.1 ≠ oov ∧ p <+: e.2).map Prod.snd).Perm
      ((sortedWords t oov).filter fun w => p <+: w) := by
    rw [List.perm_ext_iff_of_nodup ((List.filter_sublist.map Prod.snd).nodup hd.names)
      ((hd.words_nodup oov).filter _)]
    intro w
    simp only [List.mem_map, List.mem_filter, decide_eq_true_eq, hd.mem_words, IsWord]
    constructor
    · rintro ⟨⟨l, v⟩, ⟨h1, h2, h3, h4⟩, rfl⟩
      exact ⟨⟨l, h1, h2, h3⟩, h4⟩
    · rintro ⟨⟨l, h1, h2, h3⟩, h4⟩
      exact ⟨(l, w), ⟨h1, h2, h3, h4⟩, rfl⟩
  rw [← (hperm.map fun w => Pl (t.findLabel w)).sum_eq, List.map_map, mass]
  congr 1
  apply List.map_congr_left
  intro e he
  obtain ⟨h1, _⟩ := List.mem_filter.1 he
  simp only [Function.comp]
  rw [findLabel_of_mem hd.names (show (e.1, e.2) ∈ t from h1)]

theorem mass_nonneg {t : SymbolTable} {oov : Int} {Pl : Int → ℝ}
    (h : ∀ l w, IsWord t oov l w → 0 ≤ Pl l) (p : Str) : 0 ≤ mass t oov Pl p := by
  apply List.sum_nonneg
  intro x hx
  obtain ⟨⟨l, w⟩, he, rfl⟩ := List.mem_map.1 hx
  obtain ⟨h1, h2⟩ := List.mem_filter.1 he
  simp only [decide_eq_true_eq] at h2
  exact h l w ⟨h1, h2.1, h2.2.1⟩

/-! ## The next characters and their masses -/

/-- What the next characters after the prefix `p` and their masses are. -/
structure Letters (t : SymbolTable) (oov : Int) (Pl : Int → ℝ) (p : Str) (L : List (Str × ℝ)) : Prop where
  nodup : (L.map Prod.fst).Nodup
  letter : ∀ (c : Nat) m, c ≠ 32 → (([c], m) ∈ L ↔ Starts t oov (p ++ [c]) ∧ m = mass t oov Pl (p ++ [c]))
  space : ∀ m, ([32], m) ∈ L ↔ ∃ l, IsWord t oov l p ∧ m = Pl l
  single : ∀ x ∈ L, ∃ c : Nat, x.1 = [c]
  sum : (L.map Prod.snd).sum = mass t oov Pl p
  nonneg : ∀ x ∈ L, 0 ≤ x.2

theorem letters (hr : Ready M W) (hv : Vocabulary M.base.symbols M.base.oov)
    (hWs : W = sortedWords M.base.symbols M.base.oov)
    (hC : Cumul M.base.fst M.base.symbols W M.tables.order.length q (V q) F P)
    (hq : q < M.base.fst.states.length) (hn : W.length < M.tables.order.length) {Pl : Int → ℝ}
    (hP : ∀ l w, IsWord M.base.symbols M.base.oov l w → WordProb M.base.fst l q (Pl l)) {p : Str}
    {pre seg post chars : List Str} {ends : List Int} (hW : W = pre ++ (seg ++ post))
    (hseg : ∀ x ∈ seg, p <+: x) (hpre : ∀ x ∈ pre, ¬ p <+: x) (hpost : ∀ x ∈ post, ¬ p <+: x)
    (hg : Groups p.length (pre.length + 1) seg chars ends) :
    ∃ L : List (Str × ℝ), chars = L.map Prod.fst ∧
      pureRanges Arith.xr V M q ends ((pre.length + 1 : Nat) : Int) = L.map (fun x => costOf x.2) ∧
      Letters M.base.symbols M.base.oov Pl p L := by
  have hd := hv.dense
  have hlab : ∀ {l w}, IsWord M.base.symbols M.base.oov l w → M.base.symbols.findLabel w = l :=
    fun h => findLabel_of_mem hd.names h.1
  have hQ : ∀ (j : Nat) w, W[j]? = some w → P j = Pl (M.base.symbols.findLabel w) := by
    intro j w hj
    have hm := List.mem_of_getElem? hj
    rw [hWs] at hm
    obtain ⟨l, hl⟩ := hd.mem_words.1 hm
    refine (hC.prob j w hj).unique ?_
    rw [hlab hl]
    exact hP l w hl
  obtain ⟨L, e1, e2, e3, e4, e5, e6⟩ := groups_scores hC hq hn
    (Q := fun w => Pl (M.base.symbols.findLabel w)) hQ hg pre post hW rfl
  have hsegW : ∀ w ∈ seg, w ∈ W := fun w hw => by rw [hW]; simp [hw]
  have h32 : ∀ x ∈ L, x.1 ≠ some 32 := by
    intro x hx h
    obtain ⟨⟨w, hw, hk⟩, _⟩ := e4 x hx
    rw [h] at hk
    exact (hr.words w (hsegW w hw)).2 (List.mem_of_getElem? hk)
  have hinj : ∀ x ∈ L, ∀ y ∈ L, keyChar x.1 = keyChar y.1 → x.1 = y.1 := by
    intro x hx y hy h
    have h1 := h32 x hx
    have h2 := h32 y hy
    revert h h1 h2
    cases x.1 <;> cases y.1 <;> simp [keyChar] <;> omega
  have hfil : ∀ p' : Str, p <+: p' → W.filter (fun w => p' <+: w) = seg.filter (fun w => p' <+: w) := by
    intro p' hp'
    have h1 : pre.filter (fun w => p' <+: w) = [] := by
      rw [List.filter_eq_nil_iff]
      intro w hw; simp only [decide_eq_true_eq]; exact fun h => hpre w hw (hp'.trans h)
    have h2 : post.filter (fun w => p' <+: w) = [] := by
      rw [List.filter_eq_nil_iff]
      intro w hw; simp only [decide_eq_true_eq]; exact fun h => hpost w hw (hp'.trans h)
    rw [hW, List.filter_append, List.filter_append, h1, h2]
    simp
  have hmem : ∀ {w : Str}, p <+: w → w ∈ W → w ∈ seg := by
    intro w hw hm
    rw [hW] at hm
    rcases List.mem_append.1 hm with h | h
    · exact absurd hw (hpre w h)
    · rcases List.mem_append.1 h with h | h
      · exact h
      · exact absurd hw (hpost w h)
  have hex : ∀ {key : Option Nat}, (∃ w ∈ seg, w[p.length]? = key) → ∃ m, (key, m) ∈ L := by
    rintro key ⟨w, hw, rfl⟩
    obtain ⟨x, hx, hxe⟩ := List.mem_map.1 (e5 w hw)
    exact ⟨x.2, by rw [← hxe]; exact hx⟩
  refine ⟨L.map fun x => (keyChar x.1, x.2), by simp [e1, Function.comp_def],
    by rw [e2]; simp [Function.comp_def], ?_, ?_, ?_, ?_, ?_, ?_⟩
  · rw [List.map_map]
    rw [List.nodup_iff_pairwise_ne] at e3 ⊢
    rw [List.pairwise_map] at e3 ⊢
    refine List.Pairwise.imp_of_mem ?_ e3
    intro a b ha hb hab h
    exact hab (hinj a ha b hb h)
  · intro c m hc
    have hmass : mass M.base.symbols M.base.oov Pl (p ++ [c]) =
        ((seg.filter fun w => w[p.length]? = some c).map fun w => Pl (M.base.symbols.findLabel w)).sum := by
      rw [mass_eq hd, ← hWs, hfil (p ++ [c]) (List.prefix_append _ _)]
      congr 2
      apply List.filter_congr
      intro w hw
      simp only [prefix_snoc_iff, hseg w hw, true_and]
    constructor
    · intro h
      obtain ⟨x, hx, he⟩ := List.mem_map.1 h
      simp only [Prod.mk.injEq] at he
      have hk : x.1 = some c := by
        have := he.1
        cases hx1 : x.1 with
        | none => rw [hx1] at this; simp [keyChar] at this; omega
        | some d => rw [hx1] at this; simp [keyChar] at this; rw [this]
      obtain ⟨⟨w, hw, hwk⟩, hm⟩ := e4 x hx
      rw [hk] at hwk hm
      refine ⟨(starts_iff (A := Arith.xr) hv hWs _).2 ⟨w, hsegW w hw, prefix_snoc_iff.2 ⟨hseg w hw, hwk⟩⟩, ?_⟩
      rw [hmass, ← he.2, hm]
    · rintro ⟨hst, rfl⟩
      obtain ⟨w, hw, hpw⟩ := (starts_iff (A := Arith.xr) hv hWs _).1 hst
      obtain ⟨g1, g2⟩ := prefix_snoc_iff.1 hpw
      obtain ⟨m, hm⟩ := hex ⟨w, hmem g1 hw, g2⟩
      refine List.mem_map.2 ⟨(some c, m), hm, ?_⟩
      simp only [keyChar, Prod.mk.injEq, true_and]
      have := (e4 _ hm).2
      simp only at this
      rw [hmass, this]
  · intro m
    have hend : ∀ {l : Int}, IsWord M.base.symbols M.base.oov l p →
        ((seg.filter fun w => w[p.length]? = none).map fun w => Pl (M.base.symbols.findLabel w)).sum = Pl l := by
      intro l hl
      have hpW : p ∈ W := by rw [hWs]; exact hd.mem_words.2 ⟨l, hl⟩
      have : seg.filter (fun w => w[p.length]? = none) = seg.filter (fun w => w = p) := by
        apply List.filter_congr
        intro w hw
        have := prefix_end_iff (p := p) (u := w)
        simp only [hseg w hw, true_and] at this
        simp only [this]
      have hsn : seg.Nodup := by
        have hWn : W.Nodup := by rw [hWs]; exact hd.words_nodup _
        rw [hW] at hWn
        exact (hWn.sublist (List.sublist_append_right _ _)).sublist (List.sublist_append_left _ _)
      have hone : seg.filter (fun w => w = p) = [p] := by
        have hperm : (seg.filter (fun w => w = p)).Perm [p] := by
          rw [List.perm_ext_iff_of_nodup (hsn.filter _) (by simp)]
          intro w
          simp only [List.mem_filter, decide_eq_true_eq, List.mem_singleton]
          constructor
          · exact fun h => h.2
          · rintro rfl; exact ⟨hmem List.prefix_rfl hpW, rfl⟩
        exact List.perm_singleton.1 hperm
      rw [this, hone]
      simp [hlab hl]
    constructor
    · intro h
      obtain ⟨x, hx, he⟩ := List.mem_map.1 h
      simp only [Prod.mk.injEq] at he
      have hk : x.1 = none := by
        have := he.1
        cases hx1 : x.1 with
        | none => rfl
        | some d =>
          rw [hx1] at this; simp [keyChar] at this
          exact absurd (by rw [hx1, this]) (h32 x hx)
      obtain ⟨⟨w, hw, hwk⟩, hm⟩ := e4 x hx
      rw [hk] at hwk hm
      have hwp : w = p := prefix_end_iff.1 ⟨hseg w hw, hwk⟩
      subst hwp
      have hwW := hsegW w hw
      rw [hWs] at hwW
      obtain ⟨l, hl⟩ := hd.mem_words.1 hwW
      exact ⟨l, hl, by rw [← he.2, hm, hend hl]⟩
    · rintro ⟨l, hl, rfl⟩
      have hpW : p ∈ W := by rw [hWs]; exact hd.mem_words.2 ⟨l, hl⟩
      obtain ⟨m, hm⟩ := hex (key := none) ⟨p, hmem List.prefix_rfl hpW, List.getElem?_eq_none (Nat.le_refl _)⟩
      refine List.mem_map.2 ⟨(none, m), hm, ?_⟩
      simp only [keyChar, Prod.mk.injEq, true_and]
      have := (e4 _ hm).2
      simp only at this
      rw [this, hend hl]
  · intro x hx
    obtain ⟨y, _, rfl⟩ := List.mem_map.1 hx
    cases y.1 with
    | none => exact ⟨32, rfl⟩
    | some c => exact ⟨c, rfl⟩
  · rw [List.map_map]
    have : (Prod.snd ∘ fun x : Option Nat × ℝ => (keyChar x.1, x.2)) = Prod.snd := rfl
    rw [this, e6, mass_eq hd, ← hWs, hfil p List.prefix_rfl, List.filter_eq_self.2]
    intro w hw
    simpa using hseg w hw
  · intro x hx
    obtain ⟨y, hy, rfl⟩ := List.mem_map.1 hx
    simp only
    rw [(e4 y hy).2]
    apply List.sum_nonneg
    intro z hz
    obtain ⟨w, hw, rfl⟩ := List.mem_map.1 hz
    have hwW := hsegW w (List.mem_filter.1 hw).1
    rw [hWs] at hwW
    obtain ⟨l, hl⟩ := hd.mem_words.1 hwW
    show 0 ≤ Pl (M.base.symbols.findLabel w)
    rw [hlab hl]
    exact (hP l w hl).nonneg

end Mozolm.Word
