import Verif.Word.Ready

/-! # Prefix states stand for typed prefixes -/

namespace Mozolm.Word

variable {A : Arith}

/-- Enough fuel to follow any backoff chain. -/
def Enough (f : Fst A.C) (fuel : Nat) : Prop :=
  ∃ rank : Nat → Nat, (∀ s w t, NGram.IsBackoff f s w t → rank t < rank s) ∧
    ∀ s < f.states.length, rank s + 2 ≤ fuel

theorem exists_bound (g : Nat → Nat) (n : Nat) : ∃ b, ∀ s < n, g s ≤ b := by
  induction n with
  | zero => exact ⟨0, by omega⟩
  | succ n ih =>
    obtain ⟨b, hb⟩ := ih
    refine ⟨max b (g n), fun s hs => ?_⟩
    by_cases h : s = n
    · subst h; omega
    · have := hb s (by omega)
      omega

theorem enough_of_acyclic {f : Fst A.C} (ha : NGram.Acyclic f) :
    ∃ bound, ∀ fuel, bound ≤ fuel → Enough f fuel := by
  obtain ⟨rank, hr⟩ := ha
  obtain ⟨b, hb⟩ := exists_bound rank f.states.length
  exact ⟨b + 2, fun fuel hf => ⟨rank, hr, fun s hs => by have := hb s hs; omega⟩⟩

theorem FirstArc_lt {f : Fst A.C} (hc : NGram.Closed f) {s : Nat} {l : Int} {w : A.C} {d : Nat}
    (h : NGram.FirstArc f s l w d) : d < f.states.length := by
  obtain ⟨st, pre, post, h1, h2, _⟩ := h
  exact hc.2 st (List.mem_of_getElem? h1) ⟨l, w, d⟩ (by rw [h2]; simp)

/-- Where a word leads. -/
theorem nextModelState_after {f : Fst A.C} (hc : NGram.Closed f) {fuel : Nat} (hf : Enough f fuel)
    {u : Nat} (hu : u < f.states.length) {l : Int} (hl : 0 < l) {q : Nat} (hq : q < f.states.length) :
    ∃ d : Nat, d < f.states.length ∧ NGram.nextModelState A f u l fuel q = .ok (d : Int) ∧
      AfterWord f u q l d ∧ ∀ d', AfterWord f u q l d' → d' = d := by
  obtain ⟨rank, hr, hfu⟩ := hf
  have hun : ∀ {ws ws' : List A.C} {w w' : A.C} {d d' : Nat}, NGram.Found f q l ws w d →
      NGram.Found f q l ws' w' d' → d = d' := by
    intro ws
    induction ws generalizing q with
    | nil =>
      intro ws' w w' d d' h h'
      obtain ⟨t, h1, h2, _⟩ := h
      obtain ⟨t', h1', h2', h3'⟩ := h'
      cases h1
      by_cases e : ws' = []
      · subst e; cases h1'
        obtain ⟨st, pre, post, a1, a2, a3⟩ := h2
        obtain ⟨st', pre', post', b1, b2, b3⟩ := h2'
        rw [a1] at b1; cases b1
        have e1 : st.arcs.find? (fun a => a.label == l) = some ⟨l, w, d⟩ := by
          rw [a2, List.find?_append, List.find?_eq_none.2 (by simpa using a3)]; simp
        have e2 : st.arcs.find? (fun a => a.label == l) = some ⟨l, w', d'⟩ := by
          rw [b2, List.find?_append, List.find?_eq_none.2 (by simpa using b3)]; simp
        rw [e1] at e2; cases e2; rfl
      · have := h3' [] ws' q (.here _) h1' e
        obtain ⟨st, pre, post, a1, a2, a3⟩ := h2
        exact absurd rfl (this st a1 ⟨l, w, d⟩ (by rw [a2]; simp))
    | cons x ws ih =>
      intro ws' w w' d d' h h'
      obtain ⟨t, h1, h2, h3⟩ := h
      obtain ⟨t', h1', h2', h3'⟩ := h'
      cases h1 with
      | @step _ _ v _ _ hb h1 =>
      by_cases e : ws' = []
      · subst e; cases h1'
        have := h3 [] (x :: ws) q (.here _) (.step hb h1) (by simp)
        obtain ⟨st, pre, post, a1, a2, a3⟩ := h2'
        exact absurd rfl (this st a1 ⟨l, w', d'⟩ (by rw [a2]; simp))
      · obtain ⟨ws'', rfl, h1''⟩ := h1'.tail hb e
        refine ih (hb.lt hc) (ws' := ws'') ⟨t, h1, h2, ?_⟩ ⟨t', h1'', h2', ?_⟩
        · intro a b c hc' hd he
          exact h3 (x :: a) b c (.step hb hc') hd he
        · intro a b c hc' hd he
          exact h3' (x :: a) b c (.step hb hc') hd he
  rcases NGram.search_spec f hc hr (label := l) (by omega) (by omega) u (rank q + 1) q (by omega) hq fuel
    (by have := hfu q hq; omega) A.one with ⟨ws, w, d, h1, h2, _⟩ | ⟨h1, h2, _⟩
  · refine ⟨d, ?_, h2, .inl ⟨ws, w, h1⟩, ?_⟩
    · obtain ⟨t, _, ha, _⟩ := h1
      exact FirstArc_lt hc ha
    · rintro d' (⟨ws', w', h⟩ | ⟨h, _⟩)
      · exact hun h h1
      · obtain ⟨t, g1, ⟨st, pre, post, a1, a2, a3⟩, g3⟩ := h1
        exact absurd rfl (h ws t g1 st a1 ⟨l, w, d⟩ (by rw [a2]; simp))
  · refine ⟨u, hu, h2, .inr ⟨h1, rfl⟩, ?_⟩
    rintro d' (⟨ws', w', t, g1, ⟨st, pre, post, a1, a2, a3⟩, g3⟩ | ⟨_, h⟩)
    · exact absurd rfl (h1 ws' t g1 st a1 ⟨l, w', d'⟩ (by rw [a2]; simp))
    · exact h

/-- What may be stored for a prefix state. -/
def Good {C : Type} (M : Static C) (W : List Str) (x : Info) : Prop :=
  x = ⟨-1, 1, -1, -1⟩ ∨
  (0 ≤ x.modelState ∧ x.modelState < M.base.fst.states.length ∧
    ((∃ p : Str, p ≠ [] ∧ x.prefixLength = p.length ∧ IsRange W p x.beginIndex x.endIndex) ∨
     (∃ (i : Nat) (w : Str), W[i]? = some w ∧ x.beginIndex = (i : Int) + 1 ∧ x.endIndex = x.beginIndex ∧
        (w.length : Int) < x.prefixLength)))

/-- Invariant of the table of prefix states of a model. -/
structure Inv {C : Type} (M : Static C) (W : List Str) (I : Implicit) : Prop where
  wf : Wf I
  explicit : I.explicit = M.base.fst.states.length
  eb : I.explicitBegin = 1
  ee : I.explicitEnd = W.length
  mp : ∀ w ∈ W, (w.length : Int) ≤ I.maxPrefix
  oov : I.infos[0]? = some ⟨-1, 1, -1, -1⟩
  good : ∀ (i : Nat) x, I.infos[i]? = some x → Good M W x

variable {M : Static A.C} {W : List Str} {I : Implicit}

theorem IsRange.first {W : List Str} {p : Str} {b e : Int} (h : IsRange W p b e) :
    ∃ (i : Nat) (w : Str), W[i]? = some w ∧ b = (i : Int) + 1 ∧ p <+: w := by
  obtain ⟨h1, h2, h3, h4⟩ := h
  obtain ⟨w, hw⟩ := exists_getElem?_of_lt (l := W) (i := (b - 1).toNat) (by omega)
  refine ⟨(b - 1).toNat, w, hw, by omega, (h4 _ w hw).2 (by omega)⟩

/-- Requests of good states keep the invariant. -/
theorem Inv.getState (hi : Inv M W I) {q k b e : Int} (hg : Good M W ⟨q, k, b, e⟩) (hk : 1 ≤ k) :
    ∃ r I', getState I q k b e = .ok (r, I') ∧ Inv M W I' ∧ Grows I I' ∧
      (r = none ∧ ¬ (k ≤ I.maxPrefix ∧ k ≤ I.maps.length + 1) ∨
        ∃ (i : Nat) (x : Info), r = some (I.explicit + i) ∧ I'.infos[i]? = some x ∧ x.modelState = q ∧
          x.prefixLength = k ∧ x.beginIndex = b) := by
  have keep : ∀ {I'}, Wf I' → Grows I I' →
      (∀ (i : Nat) x, I'.infos[i]? = some x → I.infos[i]? = some x ∨ x = ⟨q, k, b, e⟩) → Inv M W I' := by
    intro I' w g h
    refine ⟨w, g.explicit.trans hi.explicit, g.eb.trans hi.eb, g.ee.trans hi.ee, ?_, g.getElem? hi.oov, ?_⟩
    · intro x hx; rw [g.mp]; exact hi.mp x hx
    · intro i x hx
      rcases h i x hx with h | rfl
      · exact hi.good i x h
      · exact hg
  rcases getState_spec hi.wf q k b e with ⟨I', h1, h2, h3, _, h5⟩ | ⟨s, I', h1, h2, h3, h4⟩
  · have : Inv M W I' := by
      -- nothing was added
      rcases getState_spec hi.wf q k b e with ⟨I'', h1', _, _, _, _⟩ | ⟨s, I'', h1', _, _, _⟩
      · refine keep h2 h3 ?_
        intro i x hx
        left
        have hnone := h1
        -- a refused request leaves the stored states as they were
        simp only [Word.getState, if_neg (show ¬ k = 0 by omega)] at hnone
        obtain ⟨r, J, e1, e2, e3⟩ := findExistingState_spec hi.wf q k b
        rw [e1, ok_bind] at hnone
        by_cases hr : r ≥ 0
        · simp only [if_pos hr] at hnone; cases hnone
        · simp only [if_neg hr] at hnone
          rcases e3 (by omega) with ⟨_, e4⟩ | ⟨i', x', e4, e5, _⟩
          · rcases addNewState_spec (e2.wf hi.wf) q k b e (by rw [e2.infos]; exact e4) with ⟨g1, _⟩ | ⟨J', g1, _⟩
            · rw [g1] at hnone; cases hnone
              rw [← e2.infos]; exact hx
            · rw [g1] at hnone; cases hnone
          · exact absurd (by rw [e4]; have := hi.wf.nonneg; omega) hr
      · rw [h1] at h1'; cases h1'
    exact ⟨none, I', h1, this, h3, .inl ⟨rfl, fun h => h5 ⟨hk, h.1, h.2⟩⟩⟩
  · refine ⟨some s, I', h1, keep h2.wf h2.grows ?_, h2.grows, .inr ?_⟩
    · intro i x hx
      rcases h3 i x hx with h | ⟨_, h⟩
      · exact .inl h
      · exact .inr h
    · rcases h2.key with ⟨h, _⟩ | ⟨_, i, x, a, b', c, d, e'⟩
      · omega
      · exact ⟨i, x, by rw [a], b', c, d, e'⟩

/-- Two good states with the same key have the same range. -/
theorem Good.range {x : Info} {q : Int} (hg : Good M W x) {p : Str} {b e : Int} (hq : 0 ≤ q)
    (hr : IsRange W p b e) (h1 : x.modelState = q) (h2 : x.prefixLength = p.length)
    (h3 : x.beginIndex = b) : x = ⟨q, p.length, b, e⟩ := by
  obtain ⟨j, v, hv, hb, hp⟩ := hr.first
  rcases hg with h | ⟨_, _, ⟨p', _, hl, hr'⟩ | ⟨i, w, hw, hb', he, hlt⟩⟩
  · subst h; simp at h1; omega
  · obtain ⟨j', v', hv', hb', hp'⟩ := hr'.first
    have : j = j' := by omega
    subst this
    rw [hv] at hv'; cases hv'
    have : p' = p := by
      rw [List.prefix_iff_eq_take.1 hp', List.prefix_iff_eq_take.1 hp]
      congr 1
      omega
    subst this
    rw [h3] at hr'
    obtain ⟨ms, k, b', e'⟩ := x
    simp only at *
    rw [h1, h2, h3, (hr'.unique hr).2]
  · have : j = i := by omega
    subst this
    rw [hv] at hw; cases hw
    have := hp.length_le
    omega

/-- Requesting the state of a prefix. -/
theorem Inv.getRange (hi : Inv M W I) {q : Nat} (hq : q < M.base.fst.states.length) {p : Str}
    (hp : p ≠ []) {b e : Int} (hr : IsRange W p b e) (hk : p.length ≤ I.maps.length + 1) :
    ∃ (i : Nat) (I' : Implicit), Word.getState I q p.length b e = .ok (some (I.explicit + i), I') ∧
      Inv M W I' ∧ Grows I I' ∧ I'.infos[i]? = some ⟨q, p.length, b, e⟩ := by
  have hpos := List.length_pos_of_ne_nil hp
  obtain ⟨j, v, hv, hb, hpv⟩ := hr.first
  have hmp := hi.mp v (List.mem_of_getElem? hv)
  have hle := hpv.length_le
  obtain ⟨r, I', h1, h2, h3, h4⟩ := hi.getState (q := q) (k := p.length) (b := b) (e := e)
    (.inr ⟨by simp, by simp; omega, .inl ⟨p, hp, rfl, hr⟩⟩) (by omega)
  rcases h4 with ⟨_, h⟩ | ⟨i, x, rfl, hx, a1, a2, a3⟩
  · exact absurd ⟨by omega, by omega⟩ h
  · refine ⟨i, I', h1, h2, h3, ?_⟩
    rw [hx, (h2.good i x hx).range (by omega) hr a1 a2 a3]

/-- The maps reach up to the length of a stored prefix. -/
theorem Inv.maps_length (hi : Inv M W I) {i : Nat} {x : Info} (hx : I.infos[i]? = some x) :
    x.prefixLength ≤ I.maps.length := by
  obtain ⟨k, m, h1, h2, _⟩ := hi.wf.stored i x hx
  have := lt_of_getElem?_eq_some h2
  omega

/-- The words, their labels and the order table. -/
theorem Ready.label (hr : Ready M W) (hv : Vocabulary M.base.symbols M.base.oov)
    (hW : W = sortedWords M.base.symbols M.base.oov) {i : Nat} {w : Str} (h : W[i]? = some w) :
    ∃ l, IsWord M.base.symbols M.base.oov l w ∧ 0 < l ∧
      getI M.tables.order ((i : Int) + 1) = .ok l := by
  have hm := List.mem_of_getElem? h
  rw [hW] at hm
  obtain ⟨l, hl⟩ := hv.dense.mem_words.1 hm
  have h1 := (hr.order i w h).1
  rw [findLabel_of_mem hv.dense.names hl.1] at h1
  refine ⟨l, hl, ?_, ?_⟩
  · have := (hv.dense.range hl.1).1
    have := hl.2.1
    omega
  · rw [show (i : Int) + 1 = ((i + 1 : Nat) : Int) by omega]
    exact getI_ok h1

theorem IsWord.unique_name {t : SymbolTable} (hd : Dense t) {oov l : Int} {w w' : Str}
    (h : IsWord t oov l w) (h' : IsWord t oov l w') : w = w' :=
  (findSymbol_of_mem hd.keys h.1).symm.trans (findSymbol_of_mem hd.keys h'.1)

theorem IsWord.unique_label {t : SymbolTable} (hd : Dense t) {oov l l' : Int} {w : Str}
    (h : IsWord t oov l w) (h' : IsWord t oov l' w) : l = l' :=
  (findLabel_of_mem hd.names h.1).symm.trans (findLabel_of_mem hd.names h'.1)

/-- A prefix range is attached exactly. -/
theorem attached_iff (hr : Ready M W) (hv : Vocabulary M.base.symbols M.base.oov)
    (hW : W = sortedWords M.base.symbols M.base.oov) {s : Int} {x : Info} {p : Str}
    (hx : info I s = .ok (some x)) (hR : IsRange W p x.beginIndex x.endIndex) (l : Int) :
    Attached M I s l ↔ ∃ w, IsWord M.base.symbols M.base.oov l w ∧ p <+: w := by
  obtain ⟨h1, h2, h3, h4⟩ := hR
  constructor
  · rintro ⟨x', i, e, g1, g2, g3⟩
    rw [hx] at e; cases e
    obtain ⟨w, hw⟩ := exists_getElem?_of_lt (l := W) (i := (i - 1).toNat) (by omega)
    obtain ⟨l', a1, a2, a3⟩ := hr.label hv hW hw
    rw [show (((i - 1).toNat : Nat) : Int) + 1 = i by omega, g3] at a3
    cases a3
    exact ⟨w, a1, (h4 _ w hw).2 (by omega)⟩
  · rintro ⟨w, hw, hp⟩
    have hm : w ∈ W := by rw [hW]; exact hv.dense.mem_words.2 ⟨l, hw⟩
    obtain ⟨i, hi⟩ := List.getElem?_of_mem hm
    obtain ⟨l', a1, a2, a3⟩ := hr.label hv hW hi
    have := hw.unique_label hv.dense a1
    subst this
    have := (h4 i w hi).1 hp
    exact ⟨x, (i : Int) + 1, hx, this.1, this.2, a3⟩

theorem starts_iff (hv : Vocabulary M.base.symbols M.base.oov)
    (hW : W = sortedWords M.base.symbols M.base.oov) (p : Str) :
    Starts M.base.symbols M.base.oov p ↔ ∃ w ∈ W, p <+: w := by
  constructor
  · rintro ⟨l, w, h1, h2⟩
    exact ⟨w, by rw [hW]; exact hv.dense.mem_words.2 ⟨l, h1⟩, h2⟩
  · rintro ⟨w, h1, h2⟩
    rw [hW] at h1
    obtain ⟨l, h⟩ := hv.dense.mem_words.1 h1
    exact ⟨l, w, h, h2⟩

theorem starts_of_range (hv : Vocabulary M.base.symbols M.base.oov)
    (hW : W = sortedWords M.base.symbols M.base.oov) {p : Str} {b e : Int} (h : IsRange W p b e) :
    Starts M.base.symbols M.base.oov p := by
  obtain ⟨i, w, hw, _, hp⟩ := h.first
  exact (starts_iff hv hW p).2 ⟨w, List.mem_of_getElem? hw, hp⟩

/-- A stored range stands for its prefix. -/
theorem stands_of_range (hr : Ready M W) (hv : Vocabulary M.base.symbols M.base.oov)
    (hW : W = sortedWords M.base.symbols M.base.oov) (hi : Inv M W I) {i q : Nat} {p : Str} {b e : Int}
    (hp : p ≠ []) (hx : I.infos[i]? = some ⟨q, p.length, b, e⟩) (hR : IsRange W p b e)
    (hq : q < M.base.fst.states.length) :
    Stands M I (I.explicit + i) (.word q p) := by
  cases p with
  | nil => exact absurd rfl hp
  | cons c p =>
    have h := info_stored hi.wf hx
    exact ⟨by rw [hi.explicit]; omega, hq, b, e, h, starts_of_range hv hW hR,
      fun l => attached_iff hr hv hW h hR l⟩

/-- A state standing for a prefix stores its range. -/
theorem range_of_stands (hr : Ready M W) (hv : Vocabulary M.base.symbols M.base.oov)
    (hW : W = sortedWords M.base.symbols M.base.oov) (hi : Inv M W I) {s : Int} {q : Nat} {p : Str}
    (hp : p ≠ []) (h : Stands M I s (.word q p)) :
    ∃ (i : Nat) (b e : Int), s = I.explicit + i ∧ I.infos[i]? = some ⟨q, p.length, b, e⟩ ∧
      IsRange W p b e ∧ q < M.base.fst.states.length := by
  cases p with
  | nil => exact absurd rfl hp
  | cons c p =>
    obtain ⟨h1, h2, b, e, h3, ⟨l, w, hw, hpw⟩, h5⟩ := h
    rcases info_cases hi.wf s with ⟨g, _⟩ | ⟨i, x, g1, g2, g3⟩ | ⟨_, g⟩
    · rw [hi.explicit] at g; omega
    · rw [g3] at h3
      have h3' : x = ⟨q, ((c :: p).length : Int), b, e⟩ := by cases h3; rfl
      subst h3'
      refine ⟨i, b, e, g1, g2, ?_, h2⟩
      rcases hi.good i _ g2 with g | ⟨_, _, ⟨p', _, hl, hR⟩ | ⟨j, v, hv', hb, he, hlt⟩⟩
      · exfalso
        simp only [Info.mk.injEq] at g
        omega
      · simp only at hl hR
        obtain ⟨w', a1, a2⟩ := (attached_iff hr hv hW g3 hR l).1 ((h5 l).2 ⟨w, hw, hpw⟩)
        have := hw.unique_name hv.dense a1
        subst this
        have : p' = c :: p := by
          rw [List.prefix_iff_eq_take.1 a2, List.prefix_iff_eq_take.1 hpw]
          congr 1
          omega
        subst this
        exact hR
      · exfalso
        simp only at hb he hlt
        obtain ⟨l', a1, _, a3⟩ := hr.label hv hW hv'
        obtain ⟨w', b1, b2⟩ := (h5 l').1 ⟨_, b, g3, by simp, by simp; omega, by rw [hb]; exact a3⟩
        have := a1.unique_name hv.dense b1
        subst this
        have := b2.length_le
        omega
    · rw [g] at h3; cases h3

/-! ## One call of `NextState` -/

/-- The character of a symbol, as far as words start with it. -/
def Encodes (encode : Int → Str) (t : SymbolTable) (oov : Int) : Prop :=
  ∀ (sym : Int) (d : Nat), Starts t oov [d] → (encode sym = [d] ↔ sym = d)

/-- What the model needs. -/
structure Fit (M : Static A.C) (u : Nat) : Prop where
  vocabulary : Vocabulary M.base.symbols M.base.oov
  closed : NGram.Closed M.base.fst
  unigram : M.base.unigram = u ∧ u < M.base.fst.states.length
  oovState : M.oovState = M.base.fst.states.length

/-- An id of the table. -/
theorem Inv.exists_info (hi : Inv M W I) {i : Nat} {x : Info} (hx : I.infos[i]? = some x) :
    0 ≤ I.explicit + i ∧ I.explicit + i < I.total := by
  have := lt_of_getElem?_eq_some hx
  have := hi.wf.total
  have := hi.wf.nonneg
  omega

theorem Inv.oov_lt (hi : Inv M W I) {u : Nat} (hf : Fit M u) : 0 ≤ M.oovState ∧ M.oovState < I.total := by
  have := hi.exists_info hi.oov
  rw [hi.explicit] at this
  rw [hf.oovState]
  omega

theorem Inv.unigram_lt (hi : Inv M W I) {u : Nat} (hf : Fit M u) :
    0 ≤ M.base.unigram ∧ M.base.unigram < I.total := by
  have := hi.wf.total
  have := hi.explicit
  have := hf.unigram
  omega

theorem Inv.explicit_lt (hi : Inv M W I) {q : Nat} (hq : q < M.base.fst.states.length) :
    0 ≤ (q : Int) ∧ (q : Int) < I.total := by
  have := hi.wf.total
  have := hi.explicit
  omega

/-- A first letter. -/
theorem nextFirst_spec (hr : Ready M W) {u : Nat} (hf : Fit M u)
    (hW : W = sortedWords M.base.symbols M.base.oov) {encode : Int → Str}
    (he : Encodes encode M.base.symbols M.base.oov) (hi : Inv M W I) {q : Nat}
    (hq : q < M.base.fst.states.length) (sym : Int) :
    (∃ (c i : Nat) (b e : Int) (I' : Implicit), sym = c ∧ IsRange W [c] b e ∧
      nextFirstLetterState encode M I q sym = .ok (I.explicit + i, I') ∧ Inv M W I' ∧ Grows I I' ∧
      I'.infos[i]? = some ⟨q, 1, b, e⟩) ∨
    ((∀ d : Nat, sym = d → ¬ Starts M.base.symbols M.base.oov [d]) ∧
      nextFirstLetterState encode M I q sym = .ok (M.base.unigram, I)) := by
  rcases hr.findFirst_ok (encode sym) with ⟨c, b, e, h1, h2, h3⟩ | ⟨h1, x, h2⟩
  · left
    have hc : sym = c := (he sym c (starts_of_range hf.vocabulary hW h2)).1 h1
    obtain ⟨i, I', g1, g2, g3, g4⟩ := hi.getRange (q := q) hq (p := [c]) (by simp) h2 (by simp)
    refine ⟨c, i, b, e, I', hc, h2, ?_, g2, g3, by simpa using g4⟩
    have hpos : e ≥ 0 := by have := h2.1; have := h2.2.1; omega
    simp only [nextFirstLetterState, h3, ok_bind, if_pos hpos]
    simp only [List.length_singleton, Int.natCast_one] at g1
    rw [g1]
    rfl
  · right
    refine ⟨?_, ?_⟩
    · intro d hd hs
      have henc := (he sym d hs).2 hd
      obtain ⟨w, hw, hp⟩ := (starts_iff hf.vocabulary hW [d]).1 hs
      exact h1 w hw d henc hp
    · simp [nextFirstLetterState, h2]

/-- A letter or any other symbol except a space inside a word. -/
theorem nextLetter_spec (hr : Ready M W) {u : Nat} (hf : Fit M u)
    (hW : W = sortedWords M.base.symbols M.base.oov) (encode : Int → Str) (fuel : Nat)
    (hi : Inv M W I) {i q : Nat} {p : Str} {b e : Int}
    (hx : I.infos[i]? = some ⟨q, p.length, b, e⟩) (hR : IsRange W p b e)
    (hq : q < M.base.fst.states.length) {sym : Int} (h1 : sym ≠ -1) (h32 : sym ≠ 32) :
    (∃ (c j : Nat) (b' e' : Int) (I' : Implicit), sym = c ∧ IsRange W (p ++ [c]) b' e' ∧
      nextState A encode fuel M I (I.explicit + i) sym = .ok (I.explicit + j, I') ∧ Inv M W I' ∧ Grows I I' ∧
      I'.infos[j]? = some ⟨q, (p ++ [c]).length, b', e'⟩) ∨
    ((∀ d : Nat, sym = d → ¬ Starts M.base.symbols M.base.oov (p ++ [d])) ∧
      nextState A encode fuel M I (I.explicit + i) sym = .ok (M.oovState, I)) := by
  have hinfo := info_stored hi.wf hx
  have hlt : ¬ (I.explicit + (i : Int) < M.base.fst.states.length) := by rw [hi.explicit]; omega
  have hne : ¬ (I.explicit + (i : Int) = M.oovState ∧ sym = 32) := fun h => h32 h.2
  have hge : (q : Int) ≥ 0 := by omega
  rcases hr.getBeginEndIndices_ok (x := ⟨q, p.length, b, e⟩) rfl hR h1 h32 with
    ⟨c, b', e', a1, a2, a3⟩ | ⟨a1, a2⟩
  · left
    have hml := hi.maps_length hx
    simp only at hml a2
    obtain ⟨j, I', g1, g2, g3, g4⟩ := hi.getRange (q := q) hq (p := p ++ [c]) (by simp) a3
      (by simp; omega)
    refine ⟨c, j, b', e', I', a1, a3, ?_, g2, g3, g4⟩
    have hbe : b' ≥ 0 ∧ e' ≥ 0 := by have := a3.1; have := a3.2.1; omega
    have hlen : ((p ++ [c]).length : Int) = (p.length : Int) + 1 := by simp
    rw [hlen] at g1
    simp only [nextState, if_neg hlt, if_neg hne, hinfo, ok_bind, if_pos hge, if_neg h32, a2, if_pos hbe,
      g1]
    rfl
  · right
    simp only at a2
    refine ⟨fun d hd hs => ?_, ?_⟩
    · obtain ⟨w, hw, hp⟩ := (starts_iff hf.vocabulary hW _).1 hs
      exact a1 d hd w hw hp
    · simp [nextState, if_neg hlt, if_neg hne, hinfo, ok_bind, if_neg h32, a2]

/-- Sorted words: the first word of a range is the prefix itself if that is a word. -/
theorem first_is_word (hr : Ready M W) {p : Str} {b e : Int} (hR : IsRange W p b e) (hm : p ∈ W) :
    ∃ i : Nat, W[i]? = some p ∧ b = (i : Int) + 1 := by
  obtain ⟨j, hj⟩ := List.getElem?_of_mem hm
  obtain ⟨i, w, hw, hb, hp⟩ := hR.first
  have hje := (hR.2.2.2 j p hj).1 List.prefix_rfl
  by_cases h : i = j
  · subst h; exact ⟨i, hj, hb⟩
  · exfalso
    have hil := lt_of_getElem?_eq_some hw
    have hjl := lt_of_getElem?_eq_some hj
    have hs := hr.sorted
    rw [List.pairwise_iff_getElem] at hs
    have := hs i j hil hjl (by omega)
    rw [List.getElem?_eq_getElem hil] at hw
    rw [List.getElem?_eq_getElem hjl] at hj
    cases hw; cases hj
    have hle : W[j] ≤ W[i] := by
      obtain ⟨s, hs⟩ := hp
      rw [← hs]
      exact List.le_append_left
    exact absurd this (List.not_lt.2 hle)

/-- A space inside a word. -/
theorem nextSpace_spec (hr : Ready M W) {u : Nat} (hf : Fit M u)
    (hW : W = sortedWords M.base.symbols M.base.oov) (encode : Int → Str) {fuel : Nat}
    (hfu : Enough M.base.fst fuel)
    (hi : Inv M W I) {i q : Nat} {p : Str} {b e : Int}
    (hx : I.infos[i]? = some ⟨q, p.length, b, e⟩) (hR : IsRange W p b e)
    (hq : q < M.base.fst.states.length) :
    (∃ (l : Int) (d : Nat), IsWord M.base.symbols M.base.oov l p ∧ d < M.base.fst.states.length ∧
      AfterWord M.base.fst u q l d ∧ (∀ d', AfterWord M.base.fst u q l d' → d' = d) ∧
      nextState A encode fuel M I (I.explicit + i) 32 = .ok ((d : Int), I)) ∨
    ((∀ l, ¬ IsWord M.base.symbols M.base.oov l p) ∧
      nextState A encode fuel M I (I.explicit + i) 32 = .ok (M.base.unigram, I)) := by
  have hinfo := info_stored hi.wf hx
  have hlt : ¬ (I.explicit + (i : Int) < M.base.fst.states.length) := by rw [hi.explicit]; omega
  have hne : ¬ (I.explicit + (i : Int) = M.oovState) := by
    intro h
    rw [hf.oovState, hi.explicit] at h
    have : i = 0 := by omega
    subst this
    rw [hi.oov] at hx
    simp only [Option.some.injEq, Info.mk.injEq] at hx
    omega
  have hge : (q : Int) ≥ 0 := by omega
  obtain ⟨j, w, hw, hb, hp⟩ := hR.first
  obtain ⟨l, hl, hl0, hlo⟩ := hr.label hf.vocabulary hW hw
  have hname : M.base.symbols.findSymbol l = w := findSymbol_of_mem hf.vocabulary.dense.keys hl.1
  have hlen : (strSplitByChar w).length = w.length := by simp [strSplitByChar]
  by_cases hc : w.length = p.length
  · left
    have hwp : w = p := (hp.eq_of_length hc.symm).symm
    subst hwp
    obtain ⟨d, d1, d2, d3, d4⟩ := nextModelState_after hf.closed hfu hf.unigram.2 hl0 hq
    refine ⟨l, d, hl, d1, d3, d4, ?_⟩
    simp only [nextState, if_neg hlt, hne, false_and, if_false, hinfo, ok_bind, if_pos hge, if_true,
      nextCompleteState, hb, hlo, hname, hlen, hf.unigram.1, d2]
  · right
    refine ⟨?_, ?_⟩
    · intro l' hl'
      have hm : p ∈ W := by rw [hW]; exact hf.vocabulary.dense.mem_words.2 ⟨l', hl'⟩
      obtain ⟨k, hk, hbk⟩ := first_is_word hr hR hm
      have : k = j := by omega
      subst this
      rw [hw] at hk; cases hk
      exact hc rfl
    · have hc' : ¬ ((w.length : Int) = p.length) := by omega
      simp only [nextState, if_neg hlt, hne, false_and, if_false, hinfo, ok_bind, if_pos hge, if_true,
        nextCompleteState, hb, hlo, hname, hlen, if_neg hc']

/-- Any symbol at a state made by an invalid symbol. -/
theorem junk_indices (hr : Ready M W) {x : Info} {j : Nat} {w : Str} {k : Nat} (hw : W[j]? = some w)
    (hk : x.prefixLength = k) (hb : x.beginIndex = (j : Int) + 1) (he : x.endIndex = x.beginIndex)
    (hl : w.length < k) {sym : Int} (h32 : sym ≠ 32) :
    getBeginEndIndices M x x.prefixLength sym =
      .ok (if sym = -1 then (x.beginIndex, x.beginIndex) else (-1, -1)) := by
  have hnone : w[k]? = none := List.getElem?_eq_none (by omega)
  have hc : charAt M x.beginIndex k = .ok [32] := by
    rw [hr.charAt_ok hw k hb, hnone]; rfl
  have hfuel : (x.endIndex - x.beginIndex).toNat + 3 = 3 := by omega
  have hee : ¬ (x.beginIndex < x.beginIndex) := by omega
  have hgt : ¬ (x.beginIndex + 1 ≤ x.beginIndex) := by omega
  have hlt : x.beginIndex < x.beginIndex + 1 := by omega
  have h32' : (32 : Int) ≠ sym := fun h => h32 h.symm
  simp only [getBeginEndIndices, hfuel, hk]
  by_cases h1 : sym = -1
  · subst h1
    simp [findBegin, findEnd, he]
  · simp [findBegin, skipSame, h1, he, hc, decodeSingle, h32', hgt, hlt]

/-- Every call of `NextState` at an existing or nonexistent state id, with any symbol, succeeds, keeps
the invariant and gives an existing state. -/
theorem nextState_total (hr : Ready M W) {u : Nat} (hf : Fit M u)
    (hW : W = sortedWords M.base.symbols M.base.oov) {encode : Int → Str}
    (he : Encodes encode M.base.symbols M.base.oov) {fuel : Nat} (hfu : Enough M.base.fst fuel)
    (hi : Inv M W I) {s : Int} (hs : 0 ≤ s) (sym : Int) :
    ∃ r I', nextState A encode fuel M I s sym = .ok (r, I') ∧ Inv M W I' ∧ Grows I I' ∧
      0 ≤ r ∧ r < I'.total := by
  rcases info_cases hi.wf s with ⟨g, _⟩ | ⟨i, x, g1, g2, g3⟩ | ⟨g1, g2⟩
  · rw [hi.explicit] at g
    obtain ⟨q, rfl⟩ : ∃ q : Nat, s = q := ⟨s.toNat, by omega⟩
    have hq : q < M.base.fst.states.length := by omega
    have e1 : nextState A encode fuel M I q sym = nextFirstLetterState encode M I q sym := by
      simp only [nextState, if_pos g]
    rcases nextFirst_spec hr hf hW he hi hq sym with ⟨c, i, b, e, I', _, _, h1, h2, h3, h4⟩ | ⟨_, h1⟩
    · have := h2.exists_info h4
      rw [h3.explicit] at this
      exact ⟨_, I', by rw [e1, h1], h2, h3, this⟩
    · exact ⟨_, I, by rw [e1, h1], hi, .refl I, hi.unigram_lt hf⟩
  · subst g1
    rcases hi.good i x g2 with h | ⟨hq0, hq, ⟨p, hp, hl, hR⟩ | ⟨j, w, hw, hb, hee, hlt⟩⟩
    · subst h
      by_cases h : I.explicit + (i : Int) = M.oovState ∧ sym = 32
      · refine ⟨M.base.unigram, I, ?_, hi, .refl I, hi.unigram_lt hf⟩
        have hlt : ¬ (I.explicit + (i : Int) < M.base.fst.states.length) := by rw [hi.explicit]; omega
        simp only [nextState, if_neg hlt, if_pos h]
      · refine ⟨M.oovState, I, ?_, hi, .refl I, hi.oov_lt hf⟩
        have hlt : ¬ (I.explicit + (i : Int) < M.base.fst.states.length) := by rw [hi.explicit]; omega
        simp [nextState, if_neg hlt, if_neg h, g3]
    · obtain ⟨ms, k, b, e⟩ := x
      simp only at hq0 hq hl hR
      subst hl
      obtain ⟨q, rfl⟩ : ∃ q : Nat, ms = q := ⟨ms.toNat, by omega⟩
      have hq : q < M.base.fst.states.length := by omega
      by_cases h32 : sym = 32
      · subst h32
        rcases nextSpace_spec hr hf hW encode hfu hi g2 hR hq with ⟨l, d, _, h1, _, _, h2⟩ | ⟨_, h2⟩
        · exact ⟨_, I, h2, hi, .refl I, hi.explicit_lt h1⟩
        · exact ⟨_, I, h2, hi, .refl I, hi.unigram_lt hf⟩
      · by_cases h1 : sym = -1
        · subst h1
          have hlt : ¬ (I.explicit + (i : Int) < M.base.fst.states.length) := by rw [hi.explicit]; omega
          have hne : ¬ (I.explicit + (i : Int) = M.oovState ∧ (-1 : Int) = 32) := by omega
          have hge : (q : Int) ≥ 0 := by omega
          have key : ∀ b' e' : Int, getBeginEndIndices M ⟨q, p.length, b, e⟩ (p.length : Int) (-1) =
              .ok (b', e') → Good M W ⟨q, (p.length : Int) + 1, b', e'⟩ → 0 ≤ b' → 0 ≤ e' →
              ∃ r I', nextState A encode fuel M I (I.explicit + i) (-1) = .ok (r, I') ∧ Inv M W I' ∧
                Grows I I' ∧ 0 ≤ r ∧ r < I'.total := by
            intro b' e' hbe hg h1 h2
            obtain ⟨r, I', a1, a2, a3, a4⟩ := hi.getState hg (by omega)
            have e1 : nextState A encode fuel M I (I.explicit + i) (-1) = .ok (r.getD M.oovState, I') := by
              simp only [nextState, if_neg hlt, if_neg hne, g3, ok_bind, if_pos hge, if_neg h32, hbe]
              rw [if_pos ⟨h1, h2⟩, a1]
              rfl
            refine ⟨_, I', e1, a2, a3, ?_⟩
            rcases a4 with ⟨rfl, _⟩ | ⟨i', x', rfl, hx', _⟩
            · exact a2.oov_lt hf
            · have := a2.exists_info hx'
              rw [a3.explicit] at this
              exact this
          rcases hr.getBeginEndIndices_neg (x := ⟨q, p.length, b, e⟩) rfl hR with
            ⟨c, e', a1, a2⟩ | ⟨j, a1, a2, a3⟩
          · refine key _ _ a1 (.inr ⟨by simp, by simp; omega, .inl ⟨p ++ [c], by simp, by simp, a2⟩⟩) ?_ ?_
            · have := a2.1; omega
            · have := a2.1; have := a2.2.1; omega
          · simp only at a2
            refine key _ _ a3 (.inr ⟨by simp, by simp; omega, .inr ⟨j, p, a1, a2, rfl, Int.lt_succ _⟩⟩) ?_ ?_
            · simp only; omega
            · simp only; omega
        · rcases nextLetter_spec hr hf hW encode fuel hi g2 hR hq h1 h32 with
            ⟨c, j, b', e', I', _, _, a1, a2, a3, a4⟩ | ⟨_, a1⟩
          · have := a2.exists_info a4
            rw [a3.explicit] at this
            exact ⟨_, I', a1, a2, a3, this⟩
          · exact ⟨_, I, a1, hi, .refl I, hi.oov_lt hf⟩
    · obtain ⟨ms, k, b, e⟩ := x
      simp only at hq0 hq hb hee hlt
      obtain ⟨q, rfl⟩ : ∃ q : Nat, ms = q := ⟨ms.toNat, by omega⟩
      obtain ⟨k, rfl⟩ : ∃ n : Nat, k = n := ⟨k.toNat, by omega⟩
      have hlt' : ¬ (I.explicit + (i : Int) < M.base.fst.states.length) := by rw [hi.explicit]; omega
      have hge : (q : Int) ≥ 0 := by omega
      have hne : ¬ (I.explicit + (i : Int) = M.oovState) := by
        intro h
        rw [hf.oovState, hi.explicit] at h
        have : i = 0 := by omega
        subst this
        rw [hi.oov] at g2
        simp only [Option.some.injEq, Info.mk.injEq] at g2
        omega
      by_cases h32 : sym = 32
      · subst h32
        obtain ⟨l, hl, hl0, hlo⟩ := hr.label hf.vocabulary hW hw
        have hname : M.base.symbols.findSymbol l = w := findSymbol_of_mem hf.vocabulary.dense.keys hl.1
        have hlen : (strSplitByChar w).length = w.length := by simp [strSplitByChar]
        have hc' : ¬ ((w.length : Int) = k) := by omega
        refine ⟨M.base.unigram, I, ?_, hi, .refl I, hi.unigram_lt hf⟩
        simp only [nextState, if_neg hlt', hne, false_and, if_false, g3, ok_bind, if_pos hge, if_true,
          nextCompleteState, hb, hlo, hname, hlen, if_neg hc']
      · have hj := junk_indices hr (x := ⟨q, k, b, e⟩) hw rfl hb hee (by omega) h32
        simp only at hj
        by_cases h1 : sym = -1
        · rw [if_pos h1] at hj
          obtain ⟨r, I', a1, a2, a3, a4⟩ := hi.getState (q := q) (k := (k : Int) + 1) (b := b) (e := b)
            (.inr ⟨by simp, by simp; omega, .inr ⟨j, w, hw, hb, rfl, by simp; omega⟩⟩) (by omega)
          have e1 : nextState A encode fuel M I (I.explicit + i) sym = .ok (r.getD M.oovState, I') := by
            simp only [nextState, if_neg hlt', hne, false_and, if_false, g3, ok_bind, if_pos hge, if_neg h32, hj]
            rw [if_pos ⟨by omega, by omega⟩, a1]
            rfl
          refine ⟨_, I', e1, a2, a3, ?_⟩
          rcases a4 with ⟨rfl, _⟩ | ⟨i', x', rfl, hx', _⟩
          · exact a2.oov_lt hf
          · have := a2.exists_info hx'
            rw [a3.explicit] at this
            exact this
        · rw [if_neg h1] at hj
          refine ⟨M.oovState, I, ?_, hi, .refl I, hi.oov_lt hf⟩
          simp [nextState, if_neg hlt', hne, g3, if_neg h32, hj]
  · refine ⟨M.oovState, I, ?_, hi, .refl I, hi.oov_lt hf⟩
    have ho := hi.oov_lt hf
    have ht := hi.wf.total
    have hlt : ¬ (s < M.base.fst.states.length) := by have := hi.explicit; omega
    have hne : ¬ (s = M.oovState) := by omega
    simp [nextState, if_neg hlt, hne, g2]

theorem Calls.inv (hr : Ready M W) {u : Nat} (hf : Fit M u)
    (hW : W = sortedWords M.base.symbols M.base.oov) (ha : NGram.Acyclic M.base.fst)
    {encode : Int → Str} (he : Encodes encode M.base.symbols M.base.oov) {I' : Implicit}
    (h : Calls encode M I I') (hi : Inv M W I) : Inv M W I' ∧ Grows I I' := by
  induction h with
  | refl => exact ⟨hi, .refl _⟩
  | @call J K s sym r fuel _ hs hn ih =>
    obtain ⟨h1, h2⟩ := ih
    obtain ⟨bound, hb⟩ := enough_of_acyclic ha
    -- more fuel does not change an answer
    have hmono : ∀ {f : Fst A.C} {un l : Int} (n : Nat) {q x : Int},
        NGram.nextModelState A f un l n q = .ok x →
        NGram.nextModelState A f un l (max n bound) q = .ok x := by
      intro f un l n
      have aux : ∀ (k n : Nat) {q x : Int}, NGram.nextModelState A f un l n q = .ok x →
          NGram.nextModelState A f un l (n + k) q = .ok x := by
        intro k n
        induction n with
        | zero => intro q x h; cases h
        | succ n ih =>
          intro q x h
          rw [show n + 1 + k = (n + k) + 1 by omega]
          simp only [NGram.nextModelState] at h ⊢
          by_cases hq : q = -1
          · rw [if_pos hq] at h ⊢; exact h
          · rw [if_neg hq] at h ⊢
            cases hst : f.state? q with
            | none => rw [hst] at h; cases h
            | some st =>
              rw [hst] at h
              simp only at h ⊢
              cases hm : Fst.matchFirst A.one st q l with
              | some a => rw [hm] at h; exact h
              | none =>
                rw [hm] at h
                simp only at h ⊢
                cases hbo : NGram.getBackoff A f q with
                | error _ => rw [hbo] at h; cases h
                | ok bo => rw [hbo, ok_bind] at h; rw [ok_bind]; exact ih h
      intro q x h
      have := aux (max n bound - n) n h
      rwa [show n + (max n bound - n) = max n bound by omega] at this
    have hn' : nextState A encode (max fuel bound) M J s sym = .ok (r, K) := by
      simp only [nextState] at hn ⊢
      by_cases c1 : s < M.base.fst.states.length
      · rw [if_pos c1] at hn ⊢; exact hn
      · rw [if_neg c1] at hn ⊢
        by_cases c2 : s = M.oovState ∧ sym = 32
        · rw [if_pos c2] at hn ⊢; exact hn
        · rw [if_neg c2] at hn ⊢
          cases hx : info J s with
          | error _ => rw [hx] at hn; cases hn
          | ok x =>
            rw [hx, ok_bind] at hn
            rw [ok_bind]
            cases x with
            | none => exact hn
            | some x =>
              simp only at hn ⊢
              by_cases c3 : x.modelState ≥ 0
              · rw [if_pos c3] at hn ⊢
                by_cases c4 : sym = 32
                · rw [if_pos c4] at hn ⊢
                  simp only [nextCompleteState] at hn ⊢
                  cases hg : getI M.tables.order x.beginIndex with
                  | error _ => rw [hg] at hn; cases hn
                  | ok l =>
                    rw [hg, ok_bind] at hn
                    rw [ok_bind]
                    split
                    · rename_i c5
                      rw [if_pos c5] at hn
                      cases hnm : NGram.nextModelState A M.base.fst M.base.unigram l fuel x.modelState with
                      | error _ => rw [hnm] at hn; cases hn
                      | ok d => rw [hmono fuel hnm]; rw [hnm] at hn; exact hn
                    · rename_i c5
                      rw [if_neg c5] at hn
                      exact hn
                · rw [if_neg c4] at hn ⊢; exact hn
              · rw [if_neg c3] at hn ⊢; exact hn
    obtain ⟨r', I'', g1, g2, g3, _⟩ := nextState_total hr hf hW he (hb _ (Nat.le_max_right fuel bound)) h1 hs sym
    rw [hn'] at g1
    cases g1
    exact ⟨g2, h2.trans g3⟩

/-- `EstablishLexicographicOrdering` succeeds. -/
theorem establishStates_ok {b : NGram.Model A.C} (hv : Vocabulary b.symbols b.oov) {T : Tables}
    (h2 : Built b.symbols b.oov (sortedWords b.symbols b.oov) T) :
    ∃ I, establishStates b T = .ok (some ((b.fst.states.length : Int), I)) ∧ Wf I ∧
      I.explicit = b.fst.states.length ∧ I.infos = [⟨-1, 1, -1, -1⟩] ∧ I.explicitBegin = 1 ∧
      I.explicitEnd = (sortedWords b.symbols b.oov).length ∧ I.maxPrefix = maxLength b.symbols ∧
      ∀ w ∈ sortedWords b.symbols b.oov, (w.length : Int) ≤ maxLength b.symbols := by
  have hlast : T.firstEnds.getLast? = some ((sortedWords b.symbols b.oov).length : Int) := by
    rw [h2.ends]
    simp; omega
  have hmax : ∀ w ∈ sortedWords b.symbols b.oov, (w.length : Int) ≤ maxLength b.symbols := by
    intro w hw
    obtain ⟨l, hl⟩ := hv.dense.mem_words.1 hw
    exact maxLength_ge b.symbols _ hl.1
  have hone : 1 ≤ maxLength b.symbols := by
    obtain ⟨l, w, hw⟩ := hv.some
    have := hmax w (hv.dense.mem_words.2 ⟨l, hw⟩)
    have := List.length_pos_of_ne_nil (hv.words l w hw).1
    omega
  have hw := Wf.new b.fst.states.length b.symbols 1 (sortedWords b.symbols b.oov).length
  rcases getState_spec hw (-1) 1 (-1) (-1) with ⟨I', e1, _, _, _, e5⟩ | ⟨s, I', e1, e2, e3, e4⟩
  · exfalso
    apply e5
    refine ⟨by omega, by simpa [Implicit.new] using hone, by simp [Implicit.new]⟩
  · rcases e2.key with ⟨h, _⟩ | ⟨_, i, x, a1, a2, _⟩
    · omega
    · have hi := e3 i x a2
      have hnew : (Implicit.new b.fst.states.length b.symbols 1
        (sortedWords b.symbols b.oov).length).infos = [] := rfl
      rcases hi with hi | ⟨hi, hx⟩
      · rw [hnew] at hi; simp at hi
      · rw [hnew, hx] at hi
        have hl := lt_of_getElem?_eq_some a2
        rw [hi] at hl
        simp at hl
        subst hl
        refine ⟨I', ?_, e2.wf, e2.grows.explicit, hi, e2.grows.eb, e2.grows.ee, e2.grows.mp, hmax⟩
        simp only [establishStates, hlast]
        rw [e1, a1]
        simp [Implicit.new, ok_bind]

/-- What `Read` gives. -/
theorem readWith_inv {fuel : Nat} {maxCache : Int} {b : NGram.Model A.C} {m : Model A.C}
    (hv : Vocabulary b.symbols b.oov) (h : readWith A fuel maxCache b = .ok (some m)) :
    m.static.base = b ∧ m.static.oovState = b.fst.states.length ∧
      Built b.symbols b.oov (sortedWords b.symbols b.oov) m.static.tables ∧
      Ready m.static (sortedWords b.symbols b.oov) ∧
      Inv m.static (sortedWords b.symbols b.oov) m.imp := by
  obtain ⟨T, h1, h2⟩ := buildTables_spec hv.dense hv.isUnknown
  obtain ⟨I, i1, i2, i3, i4, i5, i6, i7, hmax⟩ := establishStates_ok hv h2
  simp only [readWith, h1, ok_bind, i1] at h
  generalize hM : ({ base := b, tables := T, oovState := (b.fst.states.length : Int), maxCache := if maxCache > b.hiOrder then maxCache else 2000 } : Static A.C) = M at h
  cases hE : ensureCacheIndex A M fuel b.fst.start
      { accessed := 0, index := List.replicate b.fst.states.length (-1), entries := [] } with
  | error _ => rw [hE] at h; cases h
  | ok e =>
    rw [hE, ok_bind] at h
    by_cases he : e.1 = true
    · rw [if_pos he] at h
      cases h
      subst hM
      have hB : Built b.symbols b.oov (sortedWords b.symbols b.oov) T := h2
      refine ⟨rfl, rfl, hB, Built.ready hv hB, ⟨i2, i3, i5, i6, ?_, by rw [i4]; rfl, ?_⟩⟩
      · intro w hw; rw [i7]; exact hmax w hw
      · intro i x hx
        rw [i4] at hx
        have hl := lt_of_getElem?_eq_some hx
        simp at hl
        subst hl
        simp only [List.getElem?_cons_zero, Option.some.injEq] at hx
        exact .inl hx.symm
    · rw [if_neg he] at h; cases h

end Mozolm.Word
