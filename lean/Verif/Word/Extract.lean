import Verif.Word.Pure
import Verif.Props.WordPrefix

/-! # `ExtractLMScores` of a model that has been read: no fault, no influence of the cache -/

namespace Mozolm.Word

variable {A : Arith} {M : Static A.C} {W : List Str} {I : Implicit} {c : Cache A.C}

/-! ## Fuel -/

theorem fillWeights_mono (M : Static A.C) (k : Nat) : ∀ (n : Nat) {s : Int} {c : Cache A.C} {r},
    fillWeights A M n s c = .ok r → fillWeights A M (n + k) s c = .ok r := by
  intro n
  induction n with
  | zero => intro s c r h; cases h
  | succ n ih =>
    intro s c r h
    rw [show n + 1 + k = (n + k) + 1 by omega]
    simp only [fillWeights] at h ⊢
    obtain ⟨i, h1, h⟩ := bind_ok.1 h
    rw [h1, ok_bind]
    by_cases hi : i ≥ 0
    · rw [if_pos hi] at h ⊢; exact h
    · rw [if_neg hi] at h ⊢
      cases hst : M.base.fst.state? s with
      | none => rw [hst] at h; cases h
      | some st =>
        rw [hst] at h
        simp only at h ⊢
        obtain ⟨wh, h2, h⟩ := bind_ok.1 h
        obtain ⟨bo, h3, h⟩ := bind_ok.1 h
        obtain ⟨b, h4, h⟩ := bind_ok.1 h
        rw [h2, ok_bind, h3, ok_bind]
        have h4' : backoffVector M.maxCache (fillWeights A M (n + k)) bo.1 c = .ok b := by
          simp only [backoffVector] at h4 ⊢
          by_cases hb : bo.1 = -1
          · rw [if_pos hb] at h4 ⊢; exact h4
          · rw [if_neg hb] at h4 ⊢
            obtain ⟨e, g1, h4⟩ := bind_ok.1 h4
            have g1' : ensureWith M.maxCache (fillWeights A M (n + k)) bo.1 c = .ok e := by
              simp only [ensureWith] at g1 ⊢
              obtain ⟨i, g2, g1⟩ := bind_ok.1 g1
              rw [g2, ok_bind]
              by_cases hi : i ≥ 0
              · rw [if_pos hi] at g1 ⊢; exact g1
              · rw [if_neg hi] at g1 ⊢
                obtain ⟨x, g3, g1⟩ := bind_ok.1 g1
                rw [ih g3, ok_bind]; exact g1
            rw [g1', ok_bind]
            by_cases he : e.1 = true
            · rw [if_pos he] at h4 ⊢
              obtain ⟨x, g3, h4⟩ := bind_ok.1 h4
              rw [ih g3, ok_bind]; exact h4
            · rw [if_neg he] at h4 ⊢; exact h4
        rw [h4', ok_bind]
        exact h

theorem ensureCacheIndex_mono (k n : Nat) {s : Int} {r} (h : ensureCacheIndex A M n s c = .ok r) :
    ensureCacheIndex A M (n + k) s c = .ok r := by
  simp only [ensureCacheIndex, ensureWith] at h ⊢
  obtain ⟨i, g2, h⟩ := bind_ok.1 h
  rw [g2, ok_bind]
  by_cases hi : i ≥ 0
  · rw [if_pos hi] at h ⊢; exact h
  · rw [if_neg hi] at h ⊢
    obtain ⟨x, g3, h⟩ := bind_ok.1 h
    rw [fillWeights_mono M k n g3, ok_bind]; exact h

/-! ## What a model that has been read meets -/

/-- The labels of the arcs are labels of the symbol table. -/
def InTable (f : Fst A.C) (t : SymbolTable) : Prop :=
  ∀ st ∈ f.states, ∀ a ∈ st.arcs, a.label < t.length

theorem Built.position_ok {t : SymbolTable} {oov : Int} {T : Tables} (hd : Dense t) (hu : IsUnknown t oov)
    (h : Built t oov (sortedWords t oov) T) {l : Int} (h0 : 0 < l) (h1 : l < t.length) :
    ∃ i : Nat, getI T.position l = .ok (i : Int) ∧ i < T.order.length := by
  have hlen := hd.words_length hu
  have hol : T.order.length = t.length := by
    rw [h.order]
    split <;> simp_all
  obtain ⟨n, rfl⟩ : ∃ n : Nat, l = n := ⟨l.toNat, by omega⟩
  by_cases hw : ∃ w ∈ sortedWords t oov, t.findLabel w = n
  · obtain ⟨w, h2, h3⟩ := hw
    obtain ⟨j, hj, rfl⟩ := List.mem_iff_getElem.1 h2
    have hp := h.pos j _ (List.getElem?_eq_getElem hj)
    rw [h3] at hp
    refine ⟨1 + j, getI_ok (by simpa using hp), ?_⟩
    rw [hol]
    split at hlen <;> omega
  · refine ⟨0, getI_ok (h.pos' n (by omega) fun w hm hl => hw ⟨w, hm, hl⟩), by omega⟩

theorem Loaded.sound {m : Model A.C} (hm : Loaded m) (ht : InTable m.static.base.fst m.static.base.symbols) :
    Sound m.static := by
  obtain ⟨u, hu, hf, hB, hr, hi⟩ := hm.fit
  have hd := hm.vocabulary.dense
  have hpos : 0 < m.static.base.symbols.length := List.length_pos_of_ne_nil hd.nonempty
  refine ⟨hm.closed, ?_, ?_⟩
  · rw [hB.order]
    split <;> simp
  · intro st hst a ha h0
    exact hB.position_ok hd hm.vocabulary.isUnknown h0 (ht st hst a ha)

theorem Loaded.cache {m : Model A.C} (hm : Loaded m) (ht : InTable m.static.base.fst m.static.base.symbols)
    (h0 : 0 ≤ m.static.base.hiOrder) : 1 ≤ m.static.maxCache ∧ CacheInv m.static m.cache := by
  have hS := hm.sound ht
  obtain ⟨fuel, mc, src, _, h⟩ := hm.readWith
  simp only [Word.readWith] at h
  obtain ⟨T, h1, h⟩ := bind_ok.1 h
  cases T with
  | none => cases h
  | some T =>
    simp only at h
    obtain ⟨r, h2, h⟩ := bind_ok.1 h
    cases r with
    | none => cases h
    | some r =>
      obtain ⟨o, i⟩ := r
      simp only at h
      obtain ⟨e, h3, h⟩ := bind_ok.1 h
      by_cases he : e.1 = true
      · rw [if_pos he] at h
        have hm' := Option.some.inj (Except.ok.inj h)
        have hst : m.static = { base := m.static.base, tables := T, oovState := o, maxCache := if mc > m.static.base.hiOrder then mc else 2000 } := by
          rw [← hm']
        have hmax : 1 ≤ m.static.maxCache := by
          rw [hst]
          simp only
          split <;> omega
        refine ⟨hmax, ?_⟩
        rw [← hst] at h3
        obtain ⟨bound, hb⟩ := enough_of_acyclic hm.acyclic
        have h3' := ensureCacheIndex_mono bound fuel h3
        obtain ⟨c', k, g1, g2, g3⟩ := ensureCacheIndex_ok hS hmax (hb (fuel + bound) (by omega))
          hm.closed.1 (CacheInv.empty m.static)
        rw [h3'] at g1
        have : e.2 = m.cache := by rw [← hm']
        rw [← this]
        have : e = (true, c') := Except.ok.inj g1
        rw [this]
        exact g2
      · rw [if_neg he] at h; cases h

/-! ## Totality -/

theorem pureRanges_length (V : Int → List A.C) (s : Int) : ∀ (es : List Int) (b : Int),
    (pureRanges A V M s es b).length = es.length := by
  intro es
  induction es with
  | nil => intro b; rfl
  | cons e es ih => intro b; simp [pureRanges, ih]

theorem pureRaw_total (hr : Ready M W) {u : Nat} (hf : Fit M u)
    (hW : W = sortedWords M.base.symbols M.base.oov) {fuel : Nat} (hfu : Enough M.base.fst fuel)
    (V : Int → List A.C) (cur : Int) {q : Nat} (hq : q < M.base.fst.states.length) {j : Nat} {w : Str}
    (hj : W[j]? = some w) {chars : List Str} {ends : List Int} (hc : chars ≠ []) (hce : chars.length = ends.length) :
    ∃ raw, pureRaw A fuel V M cur q ((j : Int) + 1) chars ends = .ok raw ∧ raw.costs ≠ [] ∧
      raw.symbols.length = raw.costs.length := by
  cases chars with
  | nil => exact absurd rfl hc
  | cons c0 chars =>
    cases ends with
    | nil => simp at hce
    | cons e es =>
      simp only [List.length_cons, Nat.add_right_cancel_iff] at hce
      simp only [pureRaw]
      obtain ⟨l, _, hl, hg⟩ := hr.label hf.vocabulary hW hj
      split
      · obtain ⟨d, d1, d2, _, _⟩ := nextModelState_after hf.closed hfu hf.unigram.2 hl hq
        rw [hg, ok_bind, hf.unigram.1, d2, ok_bind]
        have hn : ¬ ((d : Int) < 0 ∨ (d : Int) > M.base.fst.states.length) := by omega
        simp only [getBackedoffFinalCost, if_neg hn]
        obtain ⟨rank, hrk, hle⟩ := hfu
        obtain ⟨x, hx⟩ := backedoffFinal_ok hf.closed hrk fuel d A.one (by have := hle d d1; omega) d1
        rw [hx, ok_bind]
        split
        · exact ⟨_, rfl, by simp, by simp [pureRanges, pureRanges_length, hce]⟩
        · exact ⟨_, rfl, by simp [pureRanges], by simp [pureRanges, pureRanges_length, hce]⟩
      · split
        · exact ⟨_, rfl, by simp, by simp [pureRanges, pureRanges_length, hce]⟩
        · exact ⟨_, rfl, by simp [pureRanges], by simp [pureRanges, pureRanges_length, hce]⟩

theorem softmax_total {v : List A.C} (h : v ≠ []) :
    ∃ r, Scores.softmaxRenormalize A v = .ok r ∧ r.length = v.length := by
  cases v with
  | nil => exact absurd rfl h
  | cons c cs => exact ⟨_, rfl, by simp⟩

theorem Groups.ne_nil {k b : Nat} {ws chars : List Str} {ends : List Int} (h : Groups k b ws chars ends)
    (hw : ws ≠ []) : chars ≠ [] ∧ chars.length = ends.length := by
  refine ⟨?_, ?_⟩
  · cases h with
    | nil => exact absurd rfl hw
    | cons => simp
  · clear hw
    induction h with
    | nil => rfl
    | cons _ _ _ _ ih => simp [ih]

theorem checkCurrentState_nonneg {u : Nat} (hf : Fit M u) {s : Int} (hs : -1 ≤ s) :
    0 ≤ NGram.checkCurrentState M.base s := by
  simp only [NGram.checkCurrentState, hf.unigram.1]
  split
  · rw [if_neg (by omega)]; omega
  · omega

/-- What is stored for a state with a range. -/
theorem Inv.model_state (hi : Inv M W I) {s : Int} (hs : 0 ≤ s) {x : Info} (hx : info I s = .ok (some x))
    (hb : 1 ≤ x.beginIndex) : 0 ≤ x.modelState ∧ x.modelState < M.base.fst.states.length := by
  rcases info_cases hi.wf s with ⟨h1, h2⟩ | ⟨i, y, h1, h2, h3⟩ | ⟨h1, h2⟩
  · rw [h2] at hx; cases hx
    rw [hi.explicit] at h1
    exact ⟨hs, h1⟩
  · rw [h3] at hx; cases hx
    rcases hi.good i x h2 with h | ⟨g1, g2, _⟩
    · rw [h] at hb; simp at hb
    · exact ⟨g1, g2⟩
  · rw [h2] at hx; cases hx

/-- `ExtractLMScores` is defined and succeeds at every state. -/
theorem pureExtract_total (hr : Ready M W) {u : Nat} (hf : Fit M u)
    (hW : W = sortedWords M.base.symbols M.base.oov) {fuel : Nat} (hfu : Enough M.base.fst fuel)
    (V : Int → List A.C) (hi : Inv M W I) {s : Int} (hs : -1 ≤ s) (resp : LMScores A.D) :
    ∃ r, pureExtract A fuel V M I s resp = .ok r ∧ r.1 = true ∧
      r.2.symbols.length + resp.probs.length = resp.symbols.length + r.2.probs.length := by
  have hcur := checkCurrentState_nonneg hf hs
  simp only [pureExtract]
  generalize NGram.checkCurrentState M.base s = cur at hcur ⊢
  have hWne : W ≠ [] := by rw [hW]; exact hf.vocabulary.words_ne
  have fin : ∀ {x : Info} {chars : List Str} {ends : List Int} {j : Nat} {w : Str}, W[j]? = some w →
      x.beginIndex = (j : Int) + 1 → 0 ≤ x.modelState → x.modelState < M.base.fst.states.length →
      chars ≠ [] → chars.length = ends.length → info I cur = .ok (some x) → getNextCharEnds M I cur = .ok (chars, ends) →
      ∃ r, (do
        let ce ← getNextCharEnds M I cur
        match ce.2 with
        | [] => .ok (true, resp)
        | _ :: _ => do
          let x ← info I cur
          match x with
          | none => .ok (false, resp)
          | some x =>
            if x.beginIndex < 1 then .ok (false, resp)
            else do
              let raw ← pureRaw A fuel V M cur x.modelState x.beginIndex ce.1 ce.2
              let norm ← Scores.softmaxRenormalize A raw.costs
              .ok (true, { symbols := resp.symbols ++ raw.symbols, probs := resp.probs ++ norm.map A.prob
                           norm := A.ofInt 1 }) : Except Fault (Bool × LMScores A.D)) = .ok r ∧ r.1 = true ∧
        r.2.symbols.length + resp.probs.length = resp.symbols.length + r.2.probs.length := by
    intro x chars ends j w hj hb hq0 hq1 hc he hx hce
    rw [hce, ok_bind]
    cases ends with
    | nil => exact absurd (List.length_eq_zero_iff.1 he) hc
    | cons e es =>
      simp only
      rw [hx, ok_bind]
      simp only
      rw [if_neg (by omega), hb]
      obtain ⟨q, hq⟩ : ∃ q : Nat, x.modelState = q := ⟨x.modelState.toNat, by omega⟩
      rw [hq] at hq1 ⊢
      obtain ⟨raw, g1, g2, g3⟩ := pureRaw_total hr hf hW hfu V cur (q := q) (by omega) hj hc he
      rw [g1, ok_bind]
      obtain ⟨n, hn, hl⟩ := softmax_total g2
      rw [hn, ok_bind]
      refine ⟨_, rfl, rfl, ?_⟩
      simp only [List.length_append, List.length_map, hl, g3]
      omega
  rcases info_cases hi.wf cur with ⟨h1, h2⟩ | ⟨i, x, h1, h2, h3⟩ | ⟨h1, h2⟩
  · obtain ⟨hc, he⟩ := hr.first.ne_nil hWne
    obtain ⟨w, hw⟩ := exists_getElem?_of_lt (List.length_pos_of_ne_nil hWne)
    rw [hi.explicit] at h1
    exact fin hw (by simp only [hi.eb]; omega) hcur h1 hc he h2 (by simp only [getNextCharEnds, if_pos h1])
  · have hlt : ¬ (cur < M.base.fst.states.length) := by rw [← hi.explicit]; omega
    rcases hi.good i x h2 with h | ⟨g1, g2, ⟨p, hp, hl, hR⟩ | ⟨j, w, hj, hb, he, hl⟩⟩
    · have hce : getNextCharEnds M I cur = .ok ([], []) := by
        simp only [getNextCharEnds, if_neg hlt, h3, ok_bind, h]
        rfl
      rw [hce]
      exact ⟨_, rfl, rfl, rfl⟩
    · obtain ⟨pre, l, rest, post, chars, ends, a1, a2, a3, a4, a5, a6, a7⟩ := charEndsImplicit_ok hr hl hR
      have hb : ¬ (x.beginIndex < 0) := by omega
      have hce : getNextCharEnds M I cur = .ok (keyChar l[p.length]? :: chars, ends) := by
        simp only [getNextCharEnds, if_neg hlt, h3, ok_bind, if_neg hb, a6]
      obtain ⟨hc, he⟩ := a7.ne_nil (by simp)
      exact fin (j := pre.length) (w := l) (by rw [a1]; simp) (by omega) g1 g2 hc he h3 hce
    · have hb' : ¬ (x.beginIndex < 0) := by omega
      have := charEndsImplicit_junk (M := M) hr (k := x.prefixLength.toNat) hj (by omega) hb he (by omega)
      have hce : getNextCharEnds M I cur = .ok ([[32]], [x.endIndex]) := by
        simp only [getNextCharEnds, if_neg hlt, h3, ok_bind, if_neg hb', this]
      exact fin hj hb g1 g2 (by simp) (by simp) h3 hce
  · have hlt : ¬ (cur < M.base.fst.states.length) := by
      have := hi.explicit
      have := hi.wf.total
      omega
    have hce : getNextCharEnds M I cur = .ok ([], []) := by
      simp only [getNextCharEnds, if_neg hlt, h2, ok_bind]
    rw [hce]
    exact ⟨_, rfl, rfl, rfl⟩

/-! ## The answer depends only on the automaton, the tables and the prefix state -/

/-- The same model with another cache size. -/
def Static.withCache {C : Type} (M : Static C) (k : Int) : Static C := { M with maxCache := k }

theorem charEndsFrom_withCache (k : Int) (p final : Int) : ∀ (n : Nat) (i : Int),
    charEndsFrom (M.withCache k) p final n i = charEndsFrom M p final n i := by
  intro n
  induction n with
  | zero => intro i; rfl
  | succ n ih =>
    intro i
    simp only [charEndsFrom, ih]
    rfl

theorem getNextCharEnds_withCache (k : Int) (s : Int) :
    getNextCharEnds (M.withCache k) I s = getNextCharEnds M I s := by
  simp only [getNextCharEnds, charEndsImplicit, charEndsFrom_withCache]
  rfl

theorem pureRanges_withCache (V : Int → List A.C) (k : Int) (s : Int) : ∀ (es : List Int) (b : Int),
    pureRanges A V (M.withCache k) s es b = pureRanges A V M s es b := by
  intro es
  induction es with
  | nil => intro b; rfl
  | cons e es ih => intro b; simp only [pureRanges, ih]; rfl

theorem pureExtract_withCache (fuel : Nat) (V : Int → List A.C) (k : Int) (s : Int) (resp : LMScores A.D) :
    pureExtract A fuel V (M.withCache k) I s resp = pureExtract A fuel V M I s resp := by
  simp only [pureExtract, getNextCharEnds_withCache, pureRaw, pureRanges_withCache]
  rfl

/-- Nor on prefix states added later. -/
theorem pureExtract_grows (fuel : Nat) (V : Int → List A.C) {I' : Implicit} (hI : Inv M W I)
    (hI' : Inv M W I') (hg : Grows I I') {s : Int} (hs : s < I.total) (hu : M.base.unigram < I.total)
    (hst : (M.base.fst.start : Int) < I.total)
    (resp : LMScores A.D) : pureExtract A fuel V M I' s resp = pureExtract A fuel V M I s resp := by
  have hcur : NGram.checkCurrentState M.base s < I.total := by
    simp only [NGram.checkCurrentState]
    split
    · split <;> assumption
    · exact hs
  have hinfo : info I' (NGram.checkCurrentState M.base s) = info I (NGram.checkCurrentState M.base s) := by
    generalize NGram.checkCurrentState M.base s = cur at hcur
    rcases info_cases hI.wf cur with ⟨h1, h2⟩ | ⟨i, x, h1, h2, h3⟩ | ⟨h1, h2⟩
    · rw [h2]
      rw [← hg.explicit] at h1
      simp only [info, if_pos h1, hg.eb, hg.ee]
    · rw [h3, h1, ← hg.explicit]
      exact info_stored hI'.wf (hg.getElem? h2)
    · omega
  simp only [pureExtract, getNextCharEnds, hinfo]

end Mozolm.Word
