import Verif.Props.WordCache

/-!
# C66: the word model's cache evicts the least recently used weights

For every automaton, vocabulary, cache size and history of calls.
-/

namespace Mozolm.Word

variable {A : Arith}

/-- The times of last access are in the past and distinct. -/
structure Timed {C : Type} (c : Cache C) : Prop where
  past : ∀ e ∈ c.entries, e.lastAccessed < c.accessed
  distinct : (c.entries.map Entry.lastAccessed).Nodup

theorem Timed.set {C : Type} {c : Cache C} (h : Timed c) (k : Nat) (e : Entry C)
    (he : e.lastAccessed = c.accessed) (index : List Int) :
    Timed { accessed := c.accessed + 1, index, entries := c.entries.set k e } := by
  refine ⟨?_, ?_⟩
  · intro x hx
    rcases List.mem_or_eq_of_mem_set hx with hx | rfl
    · have := h.past x hx; show _ < c.accessed + 1; omega
    · show _ < c.accessed + 1; omega
  · simp only [List.map_set]
    have h' := h.distinct
    rw [List.nodup_iff_pairwise_ne, List.pairwise_iff_getElem] at h' ⊢
    intro i j hi hj hij
    simp only [List.length_set] at hi hj
    simp only [List.getElem_set]
    have key : ∀ (n : Nat) (hn : n < (c.entries.map Entry.lastAccessed).length),
        (c.entries.map Entry.lastAccessed)[n] < c.accessed := by
      intro n hn
      rw [List.getElem_map]
      exact h.past _ (List.getElem_mem _)
    split <;> split
    · omega
    · have := key j hj; omega
    · have := key i hi; omega
    · exact h' i j hi hj hij

theorem getNewCacheIndex_timed {C : Type} {mx s : Int} {w : List C} {c c' : Cache C} {b : Bool} (h : Timed c)
    (hn : getNewCacheIndex mx s w c = .ok (b, c')) : Timed c' := by
  simp only [getNewCacheIndex] at hn
  split at hn
  · obtain ⟨ix, -, hn⟩ := bind_ok.1 hn
    cases hn
    refine ⟨?_, ?_⟩
    · intro e he
      rcases List.mem_append.1 he with he | he
      · have := h.past e he; show _ < c.accessed + 1; omega
      · rw [List.mem_singleton.1 he]; show c.accessed < c.accessed + 1; omega
    · simp only [List.map_append, List.map_cons, List.map_nil]
      rw [List.nodup_append]
      refine ⟨h.distinct, by simp, ?_⟩
      intro a ha x hx
      obtain ⟨e, he, rfl⟩ := List.mem_map.1 ha
      rw [List.mem_singleton.1 hx]
      have := h.past e he
      omega
  · split at hn
    · cases hn
    · rename_i e0 es heq
      obtain ⟨old, -, hn⟩ := bind_ok.1 hn
      obtain ⟨i, -, hn⟩ := bind_ok.1 hn
      split at hn
      · cases hn; exact h
      · obtain ⟨ix, -, hn⟩ := bind_ok.1 hn
        obtain ⟨ix', -, hn⟩ := bind_ok.1 hn
        cases hn
        rw [← heq]
        exact h.set _ _ rfl _

theorem touch_timed {C : Type} {s : Int} {c c' : Cache C} (h : Timed c) (hn : touch s c = .ok c') : Timed c' := by
  simp only [touch] at hn
  obtain ⟨i, -, hn⟩ := bind_ok.1 hn
  obtain ⟨e, -, hn⟩ := bind_ok.1 hn
  obtain ⟨es, hs, hn⟩ := bind_ok.1 hn
  cases hn
  simp only [setI] at hs
  split at hs
  · cases hs
    exact h.set _ _ rfl _
  · cases hs

theorem ensureWith_timed {C : Type} {mx s : Int} {fill : Int → Cache C → Except Fault (List C × Cache C)}
    (hf : ∀ {s c v c'}, Timed c → fill s c = .ok (v, c') → Timed c') {c c' : Cache C} {b : Bool} (h : Timed c)
    (hn : ensureWith mx fill s c = .ok (b, c')) : Timed c' := by
  simp only [ensureWith] at hn
  obtain ⟨i, -, hn⟩ := bind_ok.1 hn
  split at hn
  · cases hn; exact h
  · obtain ⟨r, hr, hn⟩ := bind_ok.1 hn
    exact getNewCacheIndex_timed (hf h hr) hn

theorem fillWeights_timed {M : Static A.C} : ∀ (n : Nat) {s : Int} {c c' : Cache A.C} {v : List A.C}, Timed c →
    fillWeights A M n s c = .ok (v, c') → Timed c' := by
  intro n
  induction n with
  | zero => intro s c c' v _ h; cases h
  | succ n ih =>
    intro s c c' v hc h
    simp only [fillWeights] at h
    obtain ⟨i, -, h⟩ := bind_ok.1 h
    split at h
    · obtain ⟨e, -, h⟩ := bind_ok.1 h
      cases h; exact hc
    · split at h
      · cases h
      · obtain ⟨wh, -, h⟩ := bind_ok.1 h
        obtain ⟨bo, -, h⟩ := bind_ok.1 h
        obtain ⟨b, hb, h⟩ := bind_ok.1 h
        obtain ⟨v', -, h⟩ := bind_ok.1 h
        cases h
        simp only [backoffVector] at hb
        split at hb
        · cases hb; exact hc
        · obtain ⟨r, hr, hb⟩ := bind_ok.1 hb
          obtain ⟨r1, r2⟩ := r
          have h1 := ensureWith_timed (fun {_ _ _ _} => ih) hc hr
          simp only at hb
          split at hb
          · obtain ⟨x, hx, hb⟩ := bind_ok.1 hb
            obtain ⟨x1, x2⟩ := x
            obtain ⟨y, hy, hb⟩ := bind_ok.1 hb
            cases hb
            exact touch_timed (ih h1 hx) hy
          · cases hb; exact h1

theorem getRangeCost_timed {M : Static A.C} {fuel : Nat} {s b e : Int} {c : Cache A.C} {r} (hc : Timed c)
    (h : getRangeCost A fuel M s b e c = .ok r) : Timed r.2 := by
  simp only [getRangeCost] at h
  split at h
  · cases h; exact hc
  · obtain ⟨x, hx, h⟩ := bind_ok.1 h
    have := ensureWith_timed (fun {_ _ _ _} => fillWeights_timed fuel) hc (c' := x.2) (b := x.1) hx
    split at h
    · obtain ⟨v, -, h⟩ := bind_ok.1 h
      cases h; exact this
    · cases h; exact this

theorem rangeCosts_timed {M : Static A.C} {fuel : Nat} {s : Int} : ∀ (es : List Int) {b : Int} {c : Cache A.C} {r},
    Timed c → rangeCosts A fuel M s es b c = .ok r → Timed r.2 := by
  intro es
  induction es with
  | nil => intro b c r hc h; cases h; exact hc
  | cons e es ih =>
    intro b c r hc h
    simp only [rangeCosts] at h
    obtain ⟨x, hx, h⟩ := bind_ok.1 h
    obtain ⟨y, hy, h⟩ := bind_ok.1 h
    have := ih (getRangeCost_timed hc hx) hy
    cases h
    exact this

theorem rawScores_timed {M : Static A.C} {fuel : Nat} {cur q b : Int} {chars : List Str} {ends : List Int}
    {c : Cache A.C} {r} (hc : Timed c) (h : rawScores A fuel M cur q b chars ends c = .ok r) : Timed r.2 := by
  simp only [rawScores] at h
  split at h
  · cases h
  · split at h
    · simp only [spaceScores] at h
      obtain ⟨_, -, h⟩ := bind_ok.1 h
      obtain ⟨_, -, h⟩ := bind_ok.1 h
      obtain ⟨_, -, h⟩ := bind_ok.1 h
      split at h
      · split at h
        · cases h
        · obtain ⟨x, hx, h⟩ := bind_ok.1 h
          obtain ⟨y, hy, h⟩ := bind_ok.1 h
          cases h
          exact rangeCosts_timed _ (getRangeCost_timed hc hx) hy
      · obtain ⟨y, hy, h⟩ := bind_ok.1 h
        cases h
        exact rangeCosts_timed _ hc hy
    · simp only [plainScores] at h
      obtain ⟨f, hf, h⟩ := bind_ok.1 h
      obtain ⟨y, hy, h⟩ := bind_ok.1 h
      have hf' : Timed f.2 := by
        simp only [getFinalCost] at hf
        split at hf
        · cases hf; exact hc
        · obtain ⟨x, hx, hf⟩ := bind_ok.1 hf
          have := ensureWith_timed (fun {_ _ _ _} => fillWeights_timed fuel) hc (c' := x.2) (b := x.1) hx
          split at hf
          · obtain ⟨v, -, hf⟩ := bind_ok.1 hf
            cases hf; exact this
          · cases hf; exact this
      have := rangeCosts_timed _ hf' hy
      split at h <;> (cases h; exact this)

theorem extract_timed {m : Model A.C} {fuel : Nat} {s : Int} {resp : LMScores A.D} {r} (hc : Timed m.cache)
    (h : extractLMScores A fuel m s resp = .ok r) : Timed r.2.2 := by
  simp only [extractLMScores] at h
  obtain ⟨ce, -, h⟩ := bind_ok.1 h
  split at h
  · cases h; exact hc
  · obtain ⟨x, -, h⟩ := bind_ok.1 h
    simp only [scoresAt] at h
    split at h
    · cases h; exact hc
    · split at h
      · cases h; exact hc
      · obtain ⟨r1, hr1, h⟩ := bind_ok.1 h
        have h1 := ensureWith_timed (fun {_ _ _ _} => fillWeights_timed fuel) hc (c' := r1.2) (b := r1.1) hr1
        split at h
        · obtain ⟨c1, hc1, h⟩ := bind_ok.1 h
          obtain ⟨raw, hraw, h⟩ := bind_ok.1 h
          obtain ⟨n, -, h⟩ := bind_ok.1 h
          cases h
          exact rawScores_timed (touch_timed h1 hc1) hraw
        · cases h; exact h1

theorem Uses.timed {encode : Int → Str} {fuel : Nat} {M : Static A.C} {I J : Implicit} {c d : Cache A.C}
    (h : Uses encode fuel M I c J d) (h0 : Timed c) : Timed d := by
  induction h with
  | refl => exact h0
  | next _ _ _ ih => exact ih h0
  | extract _ _ hx ih => exact extract_timed (m := ⟨_, _, _⟩) (ih h0) hx
  | score _ _ hx ih =>
    simp only [symLMScore] at hx
    obtain ⟨r, e1, hx⟩ := bind_ok.1 hx
    have := extract_timed (m := ⟨_, _, _⟩) (ih h0) e1
    split at hx
    · obtain ⟨x, -, hx⟩ := bind_ok.1 hx
      cases hx; exact this
    · cases hx; exact this

/-- **C66** (times) after any history, every entry carries the time of its last use: distinct times, all in
the past. -/
theorem C66_times {m : Model A.C} (hm : Loaded m) {encode : Int → Str} {fuel : Nat} {I : Implicit}
    {c : Cache A.C} (h : Uses encode fuel m.static m.imp m.cache I c) : Timed c := by
  refine h.timed ?_
  obtain ⟨fu, mc, src, -, hr⟩ := hm.readWith
  simp only [readWith] at hr
  obtain ⟨T, -, hr⟩ := bind_ok.1 hr
  cases T with
  | none => cases hr
  | some T =>
    obtain ⟨r, -, hr⟩ := bind_ok.1 hr
    cases r with
    | none => cases hr
    | some r =>
      obtain ⟨e, he, hr⟩ := bind_ok.1 hr
      have := ensureWith_timed (fun {_ _ _ _} => fillWeights_timed fu) (c' := e.2) (b := e.1)
        (⟨by simp, by simp⟩ : Timed _) he
      split at hr
      · have := Option.some.inj (Except.ok.inj hr)
        rw [← this]
        assumption
      · cases hr

theorem oldestFrom_spec {C : Type} : ∀ (es : List (Entry C)) (pre : List (Entry C)) (best : Nat) (e : Entry C),
    pre[best]? = some e → (∀ x ∈ pre, e.lastAccessed ≤ x.lastAccessed) →
    ∃ o, (pre ++ es)[oldestFrom es pre.length best e.lastAccessed]? = some o ∧
      ∀ x ∈ pre ++ es, o.lastAccessed ≤ x.lastAccessed := by
  intro es
  induction es with
  | nil => intro pre best e h1 h2; exact ⟨e, by simpa [oldestFrom] using h1, by simpa using h2⟩
  | cons a es ih =>
    intro pre best e h1 h2
    simp only [oldestFrom]
    have hb := lt_of_getElem?_eq_some h1
    split
    · obtain ⟨o, g1, g2⟩ := ih (pre ++ [a]) pre.length a (by simp) (by
        intro x hx
        rcases List.mem_append.1 hx with hx | hx
        · have := h2 x hx; omega
        · rw [List.mem_singleton.1 hx]; omega)
      refine ⟨o, ?_, by simpa using g2⟩
      simpa using g1
    · obtain ⟨o, g1, g2⟩ := ih (pre ++ [a]) best e (by rw [List.getElem?_append_left hb]; exact h1) (by
        intro x hx
        rcases List.mem_append.1 hx with hx | hx
        · exact h2 x hx
        · rw [List.mem_singleton.1 hx]; omega)
      refine ⟨o, ?_, by simpa using g2⟩
      simpa using g1

/-- **C66** (eviction) making room in a full cache replaces exactly one entry, the one used longest ago,
by that of the new state, used last. -/
theorem C66_evicts {C : Type} {mx s : Int} {w : List C} {c c' : Cache C} (h : Timed c)
    (hfull : mx ≤ c.entries.length) (hn : getNewCacheIndex mx s w c = .ok (true, c')) :
    ∃ (k : Nat) (old : Entry C), c.entries[k]? = some old ∧
      (∀ x ∈ c.entries, x ≠ old → old.lastAccessed < x.lastAccessed) ∧
      c'.entries = c.entries.set k ⟨s, c.accessed, w⟩ ∧
      ∀ x ∈ c'.entries, x.state ≠ s → x.lastAccessed < c.accessed := by
  have hn' := getNewCacheIndex_timed h hn
  simp only [getNewCacheIndex, if_neg (show ¬ ((c.entries.length : Int) < mx) by omega)] at hn
  split at hn
  · cases hn
  · rename_i e0 es heq
    obtain ⟨o, g1, g2⟩ := oldestFrom_spec es [e0] 0 e0 rfl (by simp)
    simp only [List.length_singleton, List.singleton_append] at g1 g2
    obtain ⟨old, ho, hn⟩ := bind_ok.1 hn
    have hoo : old = o := by
      simp only [getI, if_neg (show ¬ (((oldestFrom es 1 0 e0.lastAccessed : Nat) : Int) < 0) by omega),
        Int.toNat_natCast, g1] at ho
      cases ho; rfl
    subst hoo
    obtain ⟨i, -, hn⟩ := bind_ok.1 hn
    split at hn
    · cases hn
    · obtain ⟨ix, -, hn⟩ := bind_ok.1 hn
      obtain ⟨ix', -, hn⟩ := bind_ok.1 hn
      cases hn
      refine ⟨_, old, by rw [heq]; exact g1, ?_, by rw [heq], ?_⟩
      · intro x hx hne
        rw [heq] at hx
        have hle := g2 x hx
        rcases Int.lt_or_eq_of_le hle with hlt | heq'
        · exact hlt
        · exfalso
          apply hne
          obtain ⟨j, hj⟩ := List.mem_iff_getElem?.1 hx
          have hd := h.distinct
          rw [heq] at hd
          have e1 : ((e0 :: es).map Entry.lastAccessed)[j]? = some x.lastAccessed := by
            rw [List.getElem?_map, hj]; rfl
          have e2 : ((e0 :: es).map Entry.lastAccessed)[oldestFrom es 1 0 e0.lastAccessed]? =
            some old.lastAccessed := by rw [List.getElem?_map, g1]; rfl
          have hjk := (List.getElem?_inj (lt_of_getElem?_eq_some e1) hd).1
            (e1.trans ((congrArg some heq'.symm).trans e2.symm))
          rw [hjk, g1] at hj
          exact (Option.some.inj hj).symm
      · intro x hx hne
        rcases List.mem_or_eq_of_mem_set hx with hx | rfl
        · exact h.past x (by rw [heq]; exact hx)
        · exact absurd rfl hne

/-! ### Use -/

theorem ensure_hit {M : Static A.C} {fuel : Nat} {s k : Nat} {c : Cache A.C} (h : c.index[s]? = some (k : Int)) :
    ensureCacheIndex A M fuel s c = .ok (true, c) := by
  simp only [ensureCacheIndex, ensureWith, getI_ok h, ok_bind]
  rw [if_pos (by omega)]

theorem getRangeCost_hit {M : Static A.C} {fuel : Nat} {s k : Nat} {c : Cache A.C} (h : c.index[s]? = some (k : Int))
    {b e : Int} {r} (hr : getRangeCost A fuel M s b e c = .ok r) : r.2 = c := by
  simp only [getRangeCost, ensure_hit h, ok_bind, if_true] at hr
  split at hr
  · cases hr; rfl
  · obtain ⟨v, -, hr⟩ := bind_ok.1 hr
    cases hr; rfl

theorem rangeCosts_hit {M : Static A.C} {fuel : Nat} {s k : Nat} {c : Cache A.C} (h : c.index[s]? = some (k : Int)) :
    ∀ (es : List Int) {b : Int} {r}, rangeCosts A fuel M s es b c = .ok r → r.2 = c := by
  intro es
  induction es with
  | nil => intro b r hr; cases hr; rfl
  | cons e es ih =>
    intro b r hr
    simp only [rangeCosts] at hr
    obtain ⟨x, hx, hr⟩ := bind_ok.1 hr
    obtain ⟨y, hy, hr⟩ := bind_ok.1 hr
    rw [getRangeCost_hit h hx] at hy
    have := ih hy
    cases hr; exact this

theorem rawScores_hit {M : Static A.C} {fuel : Nat} {s k : Nat} {c : Cache A.C} (h : c.index[s]? = some (k : Int))
    {cur b : Int} {chars : List Str} {ends : List Int} {r}
    (hr : rawScores A fuel M cur s b chars ends c = .ok r) : r.2 = c := by
  simp only [rawScores] at hr
  split at hr
  · cases hr
  · split at hr
    · simp only [spaceScores] at hr
      obtain ⟨_, -, hr⟩ := bind_ok.1 hr
      obtain ⟨_, -, hr⟩ := bind_ok.1 hr
      obtain ⟨_, -, hr⟩ := bind_ok.1 hr
      split at hr
      · split at hr
        · cases hr
        · obtain ⟨x, hx, hr⟩ := bind_ok.1 hr
          obtain ⟨y, hy, hr⟩ := bind_ok.1 hr
          rw [getRangeCost_hit h hx] at hy
          have := rangeCosts_hit h _ hy
          cases hr; exact this
      · obtain ⟨y, hy, hr⟩ := bind_ok.1 hr
        have := rangeCosts_hit h _ hy
        cases hr; exact this
    · simp only [plainScores] at hr
      obtain ⟨f, hf, hr⟩ := bind_ok.1 hr
      obtain ⟨y, hy, hr⟩ := bind_ok.1 hr
      have hf' : f.2 = c := by
        simp only [getFinalCost, ensure_hit h, ok_bind, if_true] at hf
        split at hf
        · cases hf; rfl
        · obtain ⟨v, -, hf⟩ := bind_ok.1 hf
          cases hf; rfl
      rw [hf'] at hy
      have := rangeCosts_hit h _ hy
      split at hr <;> (cases hr; exact this)

/-- **C66** (use) after any history, `ExtractLMScores` at a state standing for a typed prefix in the context
`q` leaves the weights of `q` in the cache as those used last. -/
theorem C66_used {m : Model A.C} (hm : Usable m) {encode : Int → Str}
    (he : Encodes encode m.static.base.symbols m.static.base.oov) :
    ∃ bound, ∀ fuel, bound ≤ fuel → ∀ I c, Uses encode fuel m.static m.imp m.cache I c →
      ∀ (s : Int) (q : Nat) (p : Str), Stands m.static I s (.word q p) → ∀ b r c',
      extractLMScores A fuel ⟨m.static, I, c⟩ s (noScores A) = .ok (b, r, c') →
      ∃ e ∈ c'.entries, e.state = q ∧ ∀ x ∈ c'.entries, x.state ≠ q → x.lastAccessed < e.lastAccessed := by
  obtain ⟨bound, hb⟩ := enough_of_acyclic hm.acyclic
  obtain ⟨u, hu, hf, hB, hr, hi0⟩ := hm.toLoaded.fit
  have hS := hm.toLoaded.sound hm.labels
  obtain ⟨hmax, hc0⟩ := hm.toLoaded.cache hm.labels hm.hiOrder
  refine ⟨bound, fun fuel hfu I c h s q p hs b r c' hx => ?_⟩
  obtain ⟨hI, -, hc⟩ := h.inv hm he (hb fuel hfu) hi0 hc0
  have ht := C66_times hm.toLoaded h
  have hWne : sortedWords m.static.base.symbols m.static.base.oov ≠ [] := hf.vocabulary.words_ne
  have key : s ≠ -1 ∧ q < m.static.base.fst.states.length ∧ ∃ k b e chars ends,
      info I s = .ok (some ⟨q, k, b, e⟩) ∧ 1 ≤ b ∧ getNextCharEnds m.static I s = .ok (chars, ends) ∧
      ends ≠ [] := by
    by_cases hp : p = []
    · subst hp
      obtain ⟨rfl, hq⟩ := hs
      have hlt : (q : Int) < m.static.base.fst.states.length := by omega
      obtain ⟨g1, g2⟩ := hr.first.ne_nil hWne
      refine ⟨by omega, hq, 0, I.explicitBegin, I.explicitEnd, m.static.tables.firstChars,
        m.static.tables.firstEnds, ?_, by rw [hI.eb]; omega, by simp only [getNextCharEnds, if_pos hlt], ?_⟩
      · rw [← hI.explicit] at hlt
        simp only [info, if_pos hlt]
      · intro h; rw [h] at g2; exact g1 (List.length_eq_zero_iff.1 (by simpa using g2))
    · obtain ⟨i, b, e, rfl, hx, hR, hq⟩ := range_of_stands hr hf.vocabulary rfl hI hp hs
      obtain ⟨pre, w, rest, post, chars, ends, a1, a2, a3, a4, a5, a6, a7⟩ :=
        charEndsImplicit_ok (x := ⟨q, p.length, b, e⟩) hr rfl hR
      have hlt : ¬ (I.explicit + (i : Int) < m.static.base.fst.states.length) := by rw [hI.explicit]; omega
      have hinfo := info_stored hI.wf hx
      have hb1 := hR.1
      refine ⟨by rw [hI.explicit]; omega, hq, _, b, e, keyChar w[p.length]? :: chars, ends, hinfo, hR.1, by
        simp only [getNextCharEnds, if_neg hlt, hinfo, ok_bind, if_neg (show ¬ (b < 0) by omega), a6], ?_⟩
      have := (a7.ne_nil (by simp)).2
      intro h; rw [h] at this; simp at this
  obtain ⟨hs1, hq, k, b0, e0, chars, ends, hinfo, hb1, hce, hne⟩ := key
  simp only [extractLMScores, NGram.checkCurrentState, if_neg hs1, hce, ok_bind] at hx
  cases ends with
  | nil => exact absurd rfl hne
  | cons e1 es =>
    simp only [hinfo, ok_bind, scoresAt, if_neg (show ¬ (b0 < 1) by omega)] at hx
    obtain ⟨c1, k1, g1, g2, g3⟩ := ensureCacheIndex_ok hS hmax (hb fuel hfu) hq hc
    have ht1 := ensureWith_timed (fun {_ _ _ _} => fillWeights_timed fuel) ht (c' := c1) (b := true) g1
    rw [g1] at hx
    simp only [ok_bind, if_true] at hx
    obtain ⟨c2, hc2, hx1⟩ := bind_ok.1 hx
    obtain ⟨raw, hraw, hx2⟩ := bind_ok.1 hx1
    obtain ⟨n, -, hx3⟩ := bind_ok.1 hx2
    clear hx hx1 hx2
    rcases g2.fromIndex q _ g3 with h | ⟨k2, en, h1, h2, h3⟩
    · omega
    · have : k2 = k1 := by omega
      subst this
      have hl := lt_of_getElem?_eq_some h2
      simp only [touch, getI_ok g3, ok_bind, getI_ok h2, setI_ok _ hl] at hc2
      cases hc2
      have := rawScores_hit (k := k2) (c := { c1 with accessed := c1.accessed + 1, entries := c1.entries.set k2 { en with lastAccessed := c1.accessed } }) g3 hraw
      cases hx3
      rw [this]
      refine ⟨{ en with lastAccessed := c1.accessed }, ?_, h3, ?_⟩
      · exact List.mem_of_getElem? (i := k2) (by simp [hl])
      · intro x hx hne
        rcases List.mem_or_eq_of_mem_set hx with hx | rfl
        · exact ht1.past x hx
        · exact absurd h3 hne

/-! ## Cases meeting the hypotheses -/

/-- A full cache of two entries in which state 1 was used before state 0. -/
example : getNewCacheIndex 2 2 [()] ⟨2, [0, 1, -1], [⟨0, 1, [()]⟩, ⟨1, 0, [()]⟩]⟩ =
    .ok (true, ⟨3, [0, -1, 1], [⟨0, 1, [()]⟩, ⟨2, 2, [()]⟩]⟩) := by rfl

example : Timed (⟨2, [0, 1, -1], [⟨0, 1, [()]⟩, ⟨1, 0, [()]⟩]⟩ : Cache Unit) := ⟨by decide, by decide⟩

end Mozolm.Word
