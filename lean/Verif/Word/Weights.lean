import Verif.Word.Extract
import Verif.Word.WeightSpec
import Verif.Props.NGramNumeric
import Mathlib.Algebra.BigOperators.Group.Finset.Basic
import Mathlib.Algebra.Order.BigOperators.Group.Finset

/-! # The cumulative weights are sums of probabilities -/

namespace Mozolm.Word
open XR NGram

/-! ## Uniqueness -/

theorem FirstArc.unique {C : Type} {f : Fst C} {q : Nat} {l : Int} {w w' : C} {d d' : Nat}
    (h : FirstArc f q l w d) (h' : FirstArc f q l w' d') : w = w' ∧ d = d' := by
  obtain ⟨st, pre, post, a1, a2, a3⟩ := h
  obtain ⟨st', pre', post', b1, b2, b3⟩ := h'
  rw [a1] at b1; cases b1
  have e1 : st.arcs.find? (fun a => a.label == l) = some ⟨l, w, d⟩ := by
    rw [a2, List.find?_append, List.find?_eq_none.2 (by simpa using a3)]; simp
  have e2 : st.arcs.find? (fun a => a.label == l) = some ⟨l, w', d'⟩ := by
    rw [b2, List.find?_append, List.find?_eq_none.2 (by simpa using b3)]; simp
  rw [e1] at e2; cases e2; exact ⟨rfl, rfl⟩

theorem FirstArc.not_noArc {C : Type} {f : Fst C} {q : Nat} {l : Int} {w : C} {d : Nat}
    (h : FirstArc f q l w d) : ¬ NoArc f q l := by
  obtain ⟨st, pre, post, a1, a2, a3⟩ := h
  intro hn
  exact hn st a1 ⟨l, w, d⟩ (by rw [a2]; simp) rfl

theorem WordProb.nonneg {f : Fst XR} {l : Int} {q : Nat} {p : ℝ} (h : WordProb f l q p) : 0 ≤ p := by
  induction h with
  | arc h => exact h
  | back _ h _ _ ih => exact mul_nonneg h ih
  | none => exact le_refl _

theorem WordProb.unique {f : Fst XR} {l : Int} {q : Nat} {p p' : ℝ} (h : WordProb f l q p)
    (h' : WordProb f l q p') : p = p' := by
  induction h generalizing p' with
  | arc h0 h1 =>
    cases h' with
    | arc g0 g1 => exact costOf_inj h0 g0 (FirstArc.unique h1 g1).1
    | back g1 => exact absurd g1 (FirstArc.not_noArc h1)
    | none g1 => exact absurd g1 (FirstArc.not_noArc h1)
  | back h1 h2 h3 _ ih =>
    cases h' with
    | arc g0 g1 => exact absurd h1 (FirstArc.not_noArc g1)
    | back g1 g2 g3 g4 =>
      obtain ⟨e1, e2⟩ := h3.unique g3
      subst e2
      rw [costOf_inj h2 g2 e1, ih g4]
    | none g1 g2 => exact absurd h3 (g2 _ _)
  | none h1 h2 =>
    cases h' with
    | arc g0 g1 => exact absurd h1 (FirstArc.not_noArc g1)
    | back g1 g2 g3 g4 => exact absurd g3 (h2 _ _)
    | none => rfl

theorem EndProb.nonneg {f : Fst XR} {q : Nat} {p : ℝ} (h : EndProb f q p) : 0 ≤ p := by
  induction h with
  | final _ h => exact h.le
  | back _ _ h _ _ ih => exact mul_nonneg h ih
  | none => exact le_refl _

theorem EndProb.unique {f : Fst XR} {q : Nat} {p p' : ℝ} (h : EndProb f q p) (h' : EndProb f q p') :
    p = p' := by
  induction h generalizing p' with
  | final h0 h1 h2 =>
    have hne : costOf _ ≠ pinf := fun h => h1.ne' (costOf_eq_pinf.1 h)
    cases h' with
    | final g0 g1 g2 =>
      rw [h0] at g0; cases g0
      exact costOf_inj h1.le g1.le (h2.symm.trans g2)
    | back g0 g1 => rw [h0] at g0; cases g0; exact absurd (h2.symm.trans g1) hne
    | none g0 g1 => rw [h0] at g0; cases g0; exact absurd (h2.symm.trans g1) hne
  | back h0 h1 h2 h3 _ ih =>
    cases h' with
    | final g0 g1 g2 =>
      rw [h0] at g0; cases g0
      exact absurd (costOf_eq_pinf.1 (g2.symm.trans h1)) g1.ne'
    | back g0 g1 g2 g3 g4 =>
      obtain ⟨e1, e2⟩ := h3.unique g3
      subst e2
      rw [costOf_inj h2 g2 e1, ih g4]
    | none g0 g1 g2 => exact absurd h3 (g2 _ _)
  | none h0 h1 h2 =>
    cases h' with
    | final g0 g1 g2 =>
      rw [h0] at g0; cases g0
      exact absurd (costOf_eq_pinf.1 (g2.symm.trans h1)) g1.ne'
    | back g0 g1 g2 g3 => exact absurd g3 (h2 _ _)
    | none => rfl

/-! ## Arc weights -/

theorem arcWeights_untouched {C : Type} {position : List Int} {i : Nat} : ∀ (arcs : List (Arc C)) (w w' : List C)
    (h h' : List Bool), arcWeights position arcs w h = .ok (w', h') →
    (∀ a ∈ arcs, 0 < a.label → getI position a.label ≠ .ok (i : Int)) → w'[i]? = w[i]? ∧ h'[i]? = h[i]? := by
  intro arcs
  induction arcs with
  | nil => intro w w' h h' e _; cases e; exact ⟨rfl, rfl⟩
  | cons a arcs ih =>
    intro w w' h h' e hn
    simp only [arcWeights] at e
    by_cases hl : a.label > 0
    · rw [if_pos hl] at e
      obtain ⟨p, e1, e⟩ := bind_ok.1 e
      obtain ⟨w1, e2, e⟩ := bind_ok.1 e
      obtain ⟨h1, e3, e⟩ := bind_ok.1 e
      obtain ⟨k, rfl, _, rfl⟩ := setI_eq e2
      obtain ⟨k', hk, _, rfl⟩ := setI_eq e3
      have : k' = k := by omega
      subst this
      obtain ⟨g1, g2⟩ := ih _ _ _ _ e fun x hx => hn x (by simp [hx])
      have hne : k' ≠ i := by
        rintro rfl
        exact hn a (by simp) hl e1
      rw [g1, g2, List.getElem?_set_ne hne, List.getElem?_set_ne hne]
      exact ⟨rfl, rfl⟩
    · rw [if_neg hl] at e
      exact ih _ _ _ _ e fun x hx => hn x (by simp [hx])

theorem arcWeights_written {C : Type} {position : List Int} {i : Nat} {a : Arc C} (hl : 0 < a.label)
    (hp : getI position a.label = .ok (i : Int)) {post : List (Arc C)}
    (hpost : ∀ x ∈ post, 0 < x.label → getI position x.label ≠ .ok (i : Int)) :
    ∀ (pre : List (Arc C)) (w w' : List C) (h h' : List Bool),
    arcWeights position (pre ++ a :: post) w h = .ok (w', h') →
    w'[i]? = some a.weight ∧ h'[i]? = some true := by
  intro pre
  induction pre with
  | nil =>
    intro w w' h h' e
    simp only [List.nil_append, arcWeights] at e
    rw [if_pos (show a.label > 0 from hl), hp, ok_bind] at e
    obtain ⟨w1, e2, e⟩ := bind_ok.1 e
    obtain ⟨h1, e3, e⟩ := bind_ok.1 e
    obtain ⟨k, hk, hk1, f2⟩ := setI_eq e2
    obtain ⟨k', hk', hk1', f3⟩ := setI_eq e3
    have : k = i := by omega
    subst this
    have : k' = k := by omega
    subst this
    subst f2
    subst f3
    obtain ⟨g1, g2⟩ := arcWeights_untouched _ _ _ _ _ e hpost
    rw [g1, g2, List.getElem?_set_self hk1, List.getElem?_set_self hk1']
    exact ⟨rfl, rfl⟩
  | cons b pre ih =>
    intro w w' h h' e
    simp only [List.cons_append, arcWeights] at e
    split at e
    · obtain ⟨p, e1, e⟩ := bind_ok.1 e
      obtain ⟨w1, e2, e⟩ := bind_ok.1 e
      obtain ⟨h1, e3, e⟩ := bind_ok.1 e
      exact ih _ _ _ _ e
    · exact ih _ _ _ _ e

/-! ## Accumulation -/

theorem safeNegLogDiff_costOf {x r : ℝ} (hx : 0 ≤ x) (hr : 0 ≤ r) :
    safeNegLogDiff Arith.xr (costOf (x + r)) (costOf x) = costOf r := by
  simp only [safeNegLogDiff]
  by_cases h : XR.le (costOf x) (costOf (x + r))
  · have h' := (le_costOf (by positivity) hx).1 h
    have : r = 0 := by linarith
    subst this
    rw [if_pos (by simpa using h), costOf_zero]
  · rw [if_neg (by simpa using h)]
    show negLogDiff _ _ = _
    rw [negLogDiff_costOf hx (by linarith)]
    congr 1
    ring

theorem accumulate_sum {b : ℝ} (hb : 0 ≤ b) : ∀ (ws : List XR) (hs : List Bool) (bs v : List XR) (x : ℝ)
    (P : Nat → ℝ), 0 ≤ x → (∀ i, 0 ≤ P i) → hs.length = ws.length →
    (∀ i < ws.length, (hs[i]? = some true ∧ ws[i]? = some (costOf (P i))) ∨
      (hs[i]? = some false ∧ ∃ y r : ℝ, 0 ≤ y ∧ 0 ≤ r ∧ bs[i]? = some (costOf y) ∧
        bs[i + 1]? = some (costOf (y + r)) ∧ P i = b * r)) →
    accumulate Arith.xr (costOf b) (costOf x) ws hs bs = .ok v →
    ∀ i < ws.length, v[i]? = some (costOf (x + ∑ j ∈ Finset.range (i + 1), P j)) := by
  intro ws
  induction ws with
  | nil => intro hs bs v x P _ _ _ _ _ i hi; simp at hi
  | cons w ws ih =>
    intro hs bs v x P hx hP hl hall he
    cases hs with
    | nil => simp at hl
    | cons h hs =>
      simp only [List.length_cons, Nat.add_right_cancel_iff] at hl
      have h0 := hall 0 (by simp)
      simp only [List.getElem?_cons_zero, Option.some.injEq] at h0
      have key : ∀ {v' : List XR} {bs' : List XR}, (∀ i, bs'[i]? = bs[i + 1]?) →
          accumulate Arith.xr (costOf b) (costOf (x + P 0)) ws hs bs' = .ok v' →
          v = costOf (x + P 0) :: v' →
          ∀ i < (w :: ws).length, v[i]? = some (costOf (x + ∑ j ∈ Finset.range (i + 1), P j)) := by
        intro v' bs' hbs e1 e2 i hi
        rw [e2]
        cases i with
        | zero => simp
        | succ i =>
          rw [List.getElem?_cons_succ]
          have := ih hs bs' v' (x + P 0) (fun i => P (i + 1)) (by have := hP 0; linarith) (fun i => hP (i + 1)) hl
            (by
              intro i hi
              have := hall (i + 1) (by simp; omega)
              simp only [List.getElem?_cons_succ] at this
              rw [hbs, hbs]
              exact this) e1 i (by simpa using hi)
          rw [this, Finset.sum_range_succ' (fun j => P j) (i + 1)]
          congr 2
          ring
      rcases h0 with ⟨rfl, rfl⟩ | ⟨rfl, y, r, hy, hr, b0, b1, hp⟩
      · simp only [accumulate] at he
        rw [negLogSum_costOf (hP 0) hx, add_comm] at he
        obtain ⟨v', e1, e2⟩ := bind_ok.1 he
        exact key (bs' := bs.tail) (by intro i; simp) e1 (by cases e2; rfl)
      · match bs, b0, b1 with
        | c0 :: c1 :: bs, b0, b1 =>
          simp only [List.getElem?_cons_zero, List.getElem?_cons_succ, Option.some.injEq, Nat.zero_add] at b0 b1
          subst b0
          subst b1
          simp only [accumulate] at he
          rw [safeNegLogDiff_costOf hy hr, add_costOf hb hr, ← hp, negLogSum_costOf (hP 0) hx, add_comm] at he
          obtain ⟨v', e1, e2⟩ := bind_ok.1 he
          exact key (bs' := costOf (y + r) :: bs) (by intro i; simp) e1 (by cases e2; rfl)

/-! ## Positions -/

/-- What the table of positions is. -/
structure Placed (t : SymbolTable) (oov : Int) (W : List Str) (position : List Int) : Prop where
  pos : ∀ (j : Nat) w, W[j]? = some w → 0 < t.findLabel w ∧
    getI position (t.findLabel w) = .ok ((j + 1 : Nat) : Int)
  only : ∀ (l : Int) (i : Nat), 0 < l → getI position l = .ok ((i + 1 : Nat) : Int) →
    ∃ w, W[i]? = some w ∧ t.findLabel w = l
  zero : ∀ l : Int, 0 < l → getI position l = .ok ((0 : Nat) : Int) → l = oov

theorem Built.placed {t : SymbolTable} {oov : Int} {T : Tables} (hd : Dense t)
    (h : Built t oov (sortedWords t oov) T) : Placed t oov (sortedWords t oov) T.position := by
  have hpos : ∀ (j : Nat) w, (sortedWords t oov)[j]? = some w → 0 < t.findLabel w ∧
      getI T.position (t.findLabel w) = .ok ((j + 1 : Nat) : Int) := by
    intro j w hj
    obtain ⟨l, hl⟩ := hd.mem_words.1 (List.mem_of_getElem? hj)
    have e := findLabel_of_mem hd.names hl.1
    have h0 := (hd.range hl.1).1
    have := hl.2.1
    refine ⟨by omega, ?_⟩
    have hp := h.pos j w hj
    rw [e] at hp ⊢
    rw [show l = ((l.toNat : Nat) : Int) by omega, Nat.add_comm j 1]
    exact getI_ok hp
  have hcase : ∀ (l i : Int), 0 < l → getI T.position l = .ok i →
      (∃ (j : Nat) (w : Str), (sortedWords t oov)[j]? = some w ∧ t.findLabel w = l ∧ i = ((j + 1 : Nat) : Int)) ∨
      ((∀ w ∈ sortedWords t oov, t.findLabel w ≠ l) ∧ i = 0 ∧ l < t.length) := by
    intro l i hl hg
    by_cases hw : ∃ w ∈ sortedWords t oov, t.findLabel w = l
    · obtain ⟨w, hw, rfl⟩ := hw
      obtain ⟨j, hj⟩ := List.getElem?_of_mem hw
      have := (hpos j w hj).2
      rw [hg] at this
      cases this
      exact .inl ⟨j, w, hj, rfl, rfl⟩
    · obtain ⟨n, rfl, hn⟩ := getI_eq hg
      have hlt := lt_of_getElem?_eq_some hn
      rw [h.plen] at hlt
      have := h.pos' n hlt fun w hm he => hw ⟨w, hm, he⟩
      rw [hn] at this
      cases this
      exact .inr ⟨fun w hm he => hw ⟨w, hm, he⟩, rfl, by omega⟩
  refine ⟨hpos, ?_, ?_⟩
  · intro l i hl hg
    rcases hcase l _ hl hg with ⟨j, w, h1, h2, h3⟩ | ⟨_, h2, _⟩
    · have : j = i := by omega
      subst this
      exact ⟨w, h1, h2⟩
    · omega
  · intro l hl hg
    rcases hcase l _ hl hg with ⟨j, w, h1, h2, h3⟩ | ⟨h1, _, h3⟩
    · omega
    · by_contra hne
      obtain ⟨w, hw⟩ := hd.exists_name (l := l) (by omega) h3
      refine h1 w (hd.mem_words.2 ⟨l, hw, by omega, hne⟩) (findLabel_of_mem hd.names hw)

/-! ## The cumulative weights -/

/-- No state has two arcs with the same (positive) label. -/
def Deterministic {C : Type} (f : Fst C) : Prop :=
  ∀ st ∈ f.states, st.arcs.Pairwise fun a b => 0 < a.label → a.label ≠ b.label

/-- A state without backoff that is not final has no arc for the unknown word (the code would take its
weight for that of the end of the text). -/
def UnknownSafe (f : Fst XR) (oov : Int) : Prop :=
  ∀ (q : Nat) st, f.states[q]? = some st → st.final = pinf → (∀ b t, ¬ IsBackoff f q b t) → 0 < oov →
    NoArc f q oov

theorem FirstArc.exists {C : Type} {f : Fst C} {q : Nat} {st : FState C} (hst : f.states[q]? = some st) (l : Int) :
    NoArc f q l ∨ ∃ w d pre post, st.arcs = pre ++ ⟨l, w, d⟩ :: post ∧ FirstArc f q l w d := by
  cases hf : st.arcs.find? (fun a => a.label == l) with
  | none =>
    left
    intro st' h' a ha
    rw [hst] at h'; cases h'
    have := List.find?_eq_none.1 hf a ha
    simpa using this
  | some a =>
    right
    obtain ⟨h1, pre, post, h2, h3⟩ := List.find?_eq_some_iff_append.1 hf
    obtain ⟨la, wa, da⟩ := a
    have : la = l := by simpa using h1
    subst this
    exact ⟨wa, da, pre, post, h2, st, pre, post, hst, h2, fun x hx => by simpa using h3 x hx⟩

/-- Cumulative weights in terms of probabilities: `F` of the end of the text, `P j` of word number `j`. -/
structure Cumul (f : Fst XR) (t : SymbolTable) (W : List Str) (n : Nat) (q : Nat) (v : List XR) (F : ℝ)
    (P : Nat → ℝ) : Prop where
  fin : EndProb f q F
  prob : ∀ (j : Nat) w, W[j]? = some w → WordProb f (t.findLabel w) q (P j)
  rest : ∀ j, W.length ≤ j → P j = 0
  val : ∀ i < n, v[i]? = some (costOf (F + ∑ j ∈ Finset.range i, P j))

theorem Cumul.nonneg {f : Fst XR} {t : SymbolTable} {W : List Str} {n q : Nat} {v : List XR} {F : ℝ}
    {P : Nat → ℝ} (h : Cumul f t W n q v F P) (j : Nat) : 0 ≤ P j := by
  by_cases hj : j < W.length
  · exact (h.prob j _ (List.getElem?_eq_getElem hj)).nonneg
  · rw [h.rest j (by omega)]

section
variable {f : Fst XR} {T : Tables} {t : SymbolTable} {oov : Int} {W : List Str}

/-- The weight found at the position of word number `j`. -/
theorem arc_index (hw : Weighted f) (hd : Deterministic f) (hp : Placed t oov W T.position) {q : Nat}
    {st : FState XR} (hst : f.states[q]? = some st) {w : List XR} {h : List Bool}
    (ha : arcWeights T.position st.arcs (List.replicate T.order.length Arith.xr.inf)
      (List.replicate T.order.length false) = .ok (w, h)) {j : Nat} (hj : j + 1 < T.order.length) :
    (∃ (word : Str) (p : ℝ) (d : Nat), W[j]? = some word ∧ 0 ≤ p ∧
      FirstArc f q (t.findLabel word) (costOf p) d ∧ w[j + 1]? = some (costOf p) ∧ h[j + 1]? = some true) ∨
    ((∀ word, W[j]? = some word → NoArc f q (t.findLabel word)) ∧ w[j + 1]? = some pinf ∧
      h[j + 1]? = some false) := by
  have untouched : (∀ a ∈ st.arcs, 0 < a.label → getI T.position a.label ≠ .ok ((j + 1 : Nat) : Int)) →
      w[j + 1]? = some pinf ∧ h[j + 1]? = some false := by
    intro hn
    obtain ⟨g1, g2⟩ := arcWeights_untouched _ _ _ _ _ ha hn
    rw [g1, g2]
    simp [hj]
  by_cases hWj : ∃ word, W[j]? = some word
  · obtain ⟨word, hword⟩ := hWj
    obtain ⟨h0, h1⟩ := hp.pos j word hword
    rcases FirstArc.exists hst (t.findLabel word) with hno | ⟨x, d, pre, post, e, hfa⟩
    · right
      refine ⟨fun v hv => by rw [hword] at hv; cases hv; exact hno, untouched ?_⟩
      intro a ha' hl hg
      obtain ⟨v, e1, e2⟩ := hp.only _ _ hl hg
      rw [hword] at e1; cases e1
      exact hno st hst a ha' e2.symm
    · left
      obtain ⟨p, hp0, rfl⟩ := (hw st (List.mem_of_getElem? hst)).2 ⟨t.findLabel word, x, d⟩ (by rw [e]; simp)
      rw [e] at ha
      obtain ⟨g1, g2⟩ := arcWeights_written (a := ⟨t.findLabel word, costOf p, d⟩) h0 h1 (by
        intro y hy hl hg
        obtain ⟨v, e1, e2⟩ := hp.only _ _ hl hg
        rw [hword] at e1; cases e1
        have := hd st (List.mem_of_getElem? hst)
        rw [e, List.pairwise_append, List.pairwise_cons] at this
        exact this.2.1.1 y hy h0 e2) pre _ _ _ _ ha
      exact ⟨word, p, d, hword, hp0, hfa, g1, g2⟩
  · right
    refine ⟨fun v hv => absurd ⟨v, hv⟩ hWj, untouched ?_⟩
    intro a _ hl hg
    obtain ⟨v, e1, _⟩ := hp.only _ _ hl hg
    exact hWj ⟨v, e1⟩

theorem isInf_costOf (p : ℝ) : Arith.xr.isInf (costOf p) = decide (p = 0) := by
  simp only [costOf_eq_pinf]

/-- The cumulative weights of every state. -/
theorem Vec.cumul (hw : Weighted f) (hd : Deterministic f) (hu : UnknownSafe f oov)
    (hp : Placed t oov W T.position) (hn : 0 < T.order.length)
    {q : Nat} {v : List Arith.xr.C} (h : Vec (A := Arith.xr) f T q v) :
    ∃ F P, Cumul f t W T.order.length q v F P := by
  have lens : ∀ {st : FState XR} {w : List XR} {h : List Bool},
      arcWeights T.position st.arcs (List.replicate T.order.length Arith.xr.inf)
        (List.replicate T.order.length false) = .ok (w, h) → w.length = T.order.length ∧
        h.length = T.order.length := by
    intro st w h ha
    have aux : ∀ (arcs : List (Arc XR)) (w w' : List XR) (h h' : List Bool),
        arcWeights T.position arcs w h = .ok (w', h') → w'.length = w.length ∧ h'.length = h.length := by
      intro arcs
      induction arcs with
      | nil => intro w w' h h' e; cases e; exact ⟨rfl, rfl⟩
      | cons a arcs ih =>
        intro w w' h h' e
        simp only [arcWeights] at e
        split at e
        · obtain ⟨p, e1, e⟩ := bind_ok.1 e
          obtain ⟨w1, e2, e⟩ := bind_ok.1 e
          obtain ⟨h1, e3, e⟩ := bind_ok.1 e
          obtain ⟨_, _, _, f2⟩ := setI_eq e2
          obtain ⟨_, _, _, f3⟩ := setI_eq e3
          obtain ⟨g1, g2⟩ := ih _ _ _ _ e
          rw [g1, g2, f2, f3]
          simp
        · exact ih _ _ _ _ e
    simpa using aux _ _ _ _ _ ha
  induction h with
  | @root q st w h v hst hb ha hc =>
    obtain ⟨l1, l2⟩ := lens ha
    obtain ⟨p0, hp0, hfin⟩ := (hw st (List.mem_of_getElem? hst)).1
    have hex : ∀ j : Nat, ∃ p : ℝ, 0 ≤ p ∧ (∀ word, W[j]? = some word → WordProb f (t.findLabel word) q p) ∧
        (W.length ≤ j → p = 0) ∧ (j + 1 < T.order.length → w[j + 1]? = some (costOf p)) := by
      intro j
      by_cases hj : j + 1 < T.order.length
      · rcases arc_index hw hd hp hst ha hj with ⟨word, p, d, e1, e2, e3, e4, _⟩ | ⟨e1, e2, _⟩
        · refine ⟨p, e2, ?_, ?_, fun _ => e4⟩
          · intro v hv; rw [e1] at hv; cases hv; exact .arc e2 e3
          · intro hle; have := lt_of_getElem?_eq_some e1; omega
        · exact ⟨0, le_refl _, fun v hv => .none (e1 v hv) hb, fun _ => rfl, fun _ => by rw [e2, costOf_zero]⟩
      · rcases hW : W[j]? with _ | word
        · exact ⟨0, le_refl _, by simp, fun _ => rfl, fun h => absurd h hj⟩
        · rcases FirstArc.exists hst (t.findLabel word) with hno | ⟨x, d, pre, post, e, hfa⟩
          · exact ⟨0, le_refl _, fun v hv => by cases hv; exact .none hno hb, fun _ => rfl, fun h => absurd h hj⟩
          · obtain ⟨p, hp0, rfl⟩ := (hw st (List.mem_of_getElem? hst)).2 ⟨t.findLabel word, x, d⟩ (by rw [e]; simp)
            exact ⟨p, hp0, fun v hv => by cases hv; exact .arc hp0 hfa,
              fun hle => by have := lt_of_getElem?_eq_some hW; omega, fun h => absurd h hj⟩
    choose P hP using hex
    cases w with
    | nil => simp at l1; omega
    | cons w0 ws =>
      cases h with
      | nil => simp at l2; omega
      | cons h0 hs =>
      simp only [combine, List.isEmpty_nil, if_true] at hc
      have hF : ∃ F : ℝ, EndProb f q F ∧
          (if (!Arith.xr.isInf st.final) = true then st.final else w0) = costOf F := by
        by_cases hz : p0 = 0
        · subst hz
          rw [costOf_zero] at hfin
          refine ⟨0, .none hst hfin hb, ?_⟩
          rw [hfin, if_neg (by simp), costOf_zero]
          have huz := arcWeights_untouched (i := 0) _ _ _ _ _ ha (by
            intro a ha' hl hg
            have := hp.zero a.label hl hg
            exact hu q st hst hfin hb (by omega) st hst a ha' this)
          have := huz.1
          rw [List.getElem?_cons_zero, List.getElem?_replicate, if_pos hn] at this
          exact Option.some.inj this
        · refine ⟨p0, .final hst (lt_of_le_of_ne hp0 (Ne.symm hz)) hfin, ?_⟩
          rw [hfin, isInf_costOf, if_pos (by simpa using hz)]
      obtain ⟨F, hF1, hF2⟩ := hF
      rw [hF2] at hc
      obtain ⟨v', e1, e2⟩ := bind_ok.1 hc
      have hl' : ws.length + 1 = T.order.length := by simpa using l1
      rw [← costOf_one] at e1
      have acc := accumulate_sum (b := 1) zero_le_one ws _ [] v' F P hF1.nonneg (fun i => (hP i).1) (by simp)
        (by
          intro i hi
          left
          refine ⟨by simp [List.getElem?_replicate, hi], ?_⟩
          have := (hP i).2.2.2 (by omega)
          simpa using this) e1
      refine ⟨F, P, hF1, fun j word hj => (hP j).2.1 word hj, fun j hj => (hP j).2.2.1 hj, ?_⟩
      intro i hi
      cases e2
      cases i with
      | zero => simp
      | succ i => rw [List.getElem?_cons_succ]; exact acc i (by omega)
  | @back q t' st b w h u v hst hb _ ha hc ih =>
    obtain ⟨F', P', hC⟩ := ih
    obtain ⟨l1, l2⟩ := lens ha
    obtain ⟨p0, hp0, hfin⟩ := (hw st (List.mem_of_getElem? hst)).1
    obtain ⟨β, hβ, rfl⟩ : ∃ β, 0 ≤ β ∧ b = costOf β := by
      obtain ⟨st', pre, post, a1, a2, _⟩ := hb
      exact (hw st' (List.mem_of_getElem? a1)).2 ⟨0, b, t'⟩ (by rw [a2]; simp)
    have hex : ∀ j : Nat, ∃ p : ℝ, 0 ≤ p ∧ (∀ word, W[j]? = some word → WordProb f (t.findLabel word) q p) ∧
        (W.length ≤ j → p = 0) ∧ (j + 1 < T.order.length →
          (h[j + 1]? = some true ∧ w[j + 1]? = some (costOf p)) ∨
          (h[j + 1]? = some false ∧ p = β * P' j)) := by
      intro j
      by_cases hj : j + 1 < T.order.length
      · rcases arc_index hw hd hp hst ha hj with ⟨word, p, d, e1, e2, e3, e4, e5⟩ | ⟨e1, _, e5⟩
        · refine ⟨p, e2, ?_, ?_, fun _ => .inl ⟨e5, e4⟩⟩
          · intro v hv; rw [e1] at hv; cases hv; exact .arc e2 e3
          · intro hle; have := lt_of_getElem?_eq_some e1; omega
        · refine ⟨β * P' j, mul_nonneg hβ (hC.nonneg j), fun v hv => .back (e1 v hv) hβ hb (hC.prob j v hv), ?_, fun _ => .inr ⟨e5, rfl⟩⟩
          intro hle; rw [hC.rest j hle, mul_zero]
      · rcases hW : W[j]? with _ | word
        · exact ⟨0, le_refl _, by simp, fun _ => rfl, fun h => absurd h hj⟩
        · have hle : ¬ (W.length ≤ j) := by have := lt_of_getElem?_eq_some hW; omega
          rcases FirstArc.exists hst (t.findLabel word) with hno | ⟨x, d, pre, post, e, hfa⟩
          · exact ⟨β * P' j, mul_nonneg hβ (hC.nonneg j),
              fun v hv => by cases hv; exact .back hno hβ hb (hC.prob j _ hW),
              fun h => absurd h hle, fun h => absurd h hj⟩
          · obtain ⟨p, hp0, rfl⟩ := (hw st (List.mem_of_getElem? hst)).2 ⟨t.findLabel word, x, d⟩ (by rw [e]; simp)
            exact ⟨p, hp0, fun v hv => by cases hv; exact .arc hp0 hfa,
              fun h => absurd h hle, fun h => absurd h hj⟩
    choose P hP using hex
    have hF'0 := hC.fin.nonneg
    cases w with
    | nil => simp at l1; omega
    | cons w0 ws =>
      cases h with
      | nil => simp at l2; omega
      | cons h0 hs =>
      cases u with
      | nil => have := hC.val 0 hn; simp at this
      | cons u0 us =>
      have hu0 : u0 = costOf F' := by have := hC.val 0 hn; simpa using this
      subst hu0
      simp only [combine, List.isEmpty_cons] at hc
      have hF : ∃ F : ℝ, EndProb f q F ∧
          (if (!Arith.xr.isInf st.final) = true then st.final else Arith.xr.times (costOf F') (costOf β)) =
            costOf F := by
        by_cases hz : p0 = 0
        · subst hz
          rw [costOf_zero] at hfin
          refine ⟨β * F', .back hst hfin hβ hb hC.fin, ?_⟩
          rw [hfin, if_neg (by simp), mul_comm]
          exact add_costOf hF'0 hβ
        · refine ⟨p0, .final hst (lt_of_le_of_ne hp0 (Ne.symm hz)) hfin, ?_⟩
          rw [hfin, isInf_costOf, if_pos (by simpa using hz)]
      obtain ⟨F, hF1, hF2⟩ := hF
      rw [hF2] at hc
      obtain ⟨v', e1, e2⟩ := bind_ok.1 hc
      have hl' : ws.length + 1 = T.order.length := by simpa using l1
      have hl2 : hs.length + 1 = T.order.length := by simpa using l2
      have acc := accumulate_sum hβ ws hs (costOf F' :: us) v' F P hF1.nonneg (fun i => (hP i).1) (by omega)
        (by
          intro i hi
          rcases (hP i).2.2.2 (by omega) with ⟨a1, a2⟩ | ⟨a1, a2⟩
          · left; exact ⟨by simpa using a1, by simpa using a2⟩
          · right
            refine ⟨by simpa using a1, F' + ∑ j ∈ Finset.range i, P' j, P' i, ?_, hC.nonneg i,
              hC.val i (by omega), ?_, a2⟩
            · exact add_nonneg hF'0 (Finset.sum_nonneg fun j _ => hC.nonneg j)
            · rw [hC.val (i + 1) (by omega), Finset.sum_range_succ, add_assoc]) e1
      refine ⟨F, P, hF1, fun j word hj => (hP j).2.1 word hj, fun j hj => (hP j).2.2.1 hj, ?_⟩
      intro i hi
      cases e2
      cases i with
      | zero => simp
      | succ i => rw [List.getElem?_cons_succ]; exact acc i (by omega)

end

end Mozolm.Word
