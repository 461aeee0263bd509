import Verif.Word.Extract

/-!
# C33: word-model caching is transparent and bounded

For every automaton (closed, acyclic backoff, labels in the symbol table), every vocabulary as in
`Vocabulary`, every cache size and every history of calls after `Read`.
-/

namespace Mozolm.Word

variable {A : Arith}

/-- A model that `Read` gave for a sound automaton whose labels are in the symbol table. -/
structure Usable (m : Model A.C) : Prop extends Loaded m where
  labels : ∀ st ∈ m.static.base.fst.states, ∀ a ∈ st.arcs, a.label < m.static.base.symbols.length
  hiOrder : 0 ≤ m.static.base.hiOrder

/-- A history of calls of `NextState` (existing states, any symbol), `ExtractLMScores` and `SymLMScore`
(any state but those below -1): prefix states and cache before and after. -/
inductive Uses (encode : Int → Str) (fuel : Nat) (M : Static A.C) :
    Implicit → Cache A.C → Implicit → Cache A.C → Prop
  | refl (I c) : Uses encode fuel M I c I c
  | next {I J K c d} {s sym r : Int} : Uses encode fuel M I c J d → 0 ≤ s →
      nextState A encode fuel M J s sym = .ok (r, K) → Uses encode fuel M I c K d
  | extract {I J c d d'} {s : Int} {resp resp' : LMScores A.D} {b : Bool} : Uses encode fuel M I c J d →
      -1 ≤ s → extractLMScores A fuel ⟨M, J, d⟩ s resp = .ok (b, resp', d') → Uses encode fuel M I c J d'
  | score {I J c d d'} {s sym : Int} {x : A.C} : Uses encode fuel M I c J d →
      -1 ≤ s → symLMScore A fuel ⟨M, J, d⟩ s sym = .ok (x, d') → Uses encode fuel M I c J d'

/-- The cache before `Read` fills it, ngram_word_fst_model.cc:241-242. -/
def emptyCache {C : Type} (M : Static C) : Cache C :=
  { accessed := 0, index := List.replicate M.base.fst.states.length (-1), entries := [] }

/-- What holds throughout a history. -/
theorem Uses.inv {m : Model A.C} (hm : Usable m) {encode : Int → Str}
    (he : Encodes encode m.static.base.symbols m.static.base.oov) {fuel : Nat}
    (hfu : Enough m.static.base.fst fuel) {I J : Implicit} {c d : Cache A.C}
    (hI : Inv m.static (sortedWords m.static.base.symbols m.static.base.oov) I) (hc : CacheInv m.static c)
    (h : Uses encode fuel m.static I c J d) :
    Inv m.static (sortedWords m.static.base.symbols m.static.base.oov) J ∧ Grows I J ∧
      CacheInv m.static d := by
  obtain ⟨u, hu, hf, hB, hr, hi0⟩ := hm.toLoaded.fit
  have hS := hm.toLoaded.sound hm.labels
  obtain ⟨hmax, -⟩ := hm.toLoaded.cache hm.labels hm.hiOrder
  obtain ⟨V, hV⟩ := Serves.exists hS hm.acyclic
  have ext : ∀ {J : Implicit} {d d' : Cache A.C} {s : Int} {resp resp' : LMScores A.D} {b : Bool},
      Inv m.static (sortedWords m.static.base.symbols m.static.base.oov) J → CacheInv m.static d → -1 ≤ s →
      extractLMScores A fuel ⟨m.static, J, d⟩ s resp = .ok (b, resp', d') → CacheInv m.static d' := by
    intro J d d' s resp resp' b hJ hd hs hx
    obtain ⟨r, g1, -⟩ := pureExtract_total hr hf rfl hfu V hJ hs resp
    obtain ⟨c', g2, g3⟩ := extract_pure hS hmax hfu hV hd g1
      (fun x hx hb => hJ.model_state (checkCurrentState_nonneg hf hs) hx hb)
    rw [hx] at g2
    have := Except.ok.inj g2
    rw [show d' = c' from congrArg (·.2.2) this]
    exact g3
  induction h with
  | refl => exact ⟨hI, .refl _, hc⟩
  | next _ hs hn ih =>
    obtain ⟨h1, h2, h3⟩ := ih hc
    obtain ⟨r', I', g1, g2, g3, -⟩ := nextState_total hr hf rfl he hfu h1 hs _
    rw [hn] at g1
    cases g1
    exact ⟨g2, h2.trans g3, h3⟩
  | extract _ hs hx ih =>
    obtain ⟨h1, h2, h3⟩ := ih hc
    exact ⟨h1, h2, ext h1 h3 hs hx⟩
  | score _ hs hx ih =>
    obtain ⟨h1, h2, h3⟩ := ih hc
    refine ⟨h1, h2, ?_⟩
    simp only [symLMScore] at hx
    obtain ⟨r, e1, hx⟩ := bind_ok.1 hx
    obtain ⟨b, resp', d2⟩ := r
    have := ext h1 h3 hs e1
    simp only at hx
    split at hx
    · obtain ⟨x, -, hx⟩ := bind_ok.1 hx
      cases hx; exact this
    · cases hx; exact this

/-- **C33** (bounded) after any history the cache has at most the maximal number of entries, at most one
per state. -/
theorem C33_bounded {m : Model A.C} (hm : Usable m) {encode : Int → Str}
    (he : Encodes encode m.static.base.symbols m.static.base.oov) :
    ∃ bound, ∀ fuel, bound ≤ fuel → ∀ I c, Uses encode fuel m.static m.imp m.cache I c →
      (c.entries.length : Int) ≤ m.static.maxCache ∧ (c.entries.map Entry.state).Nodup := by
  obtain ⟨bound, hb⟩ := enough_of_acyclic hm.acyclic
  obtain ⟨u, hu, hf, hB, hr, hi0⟩ := hm.toLoaded.fit
  obtain ⟨hmax, hc0⟩ := hm.toLoaded.cache hm.labels hm.hiOrder
  refine ⟨bound, fun fuel hfu I c h => ?_⟩
  obtain ⟨-, -, hc⟩ := h.inv hm he (hb fuel hfu) hi0 hc0
  refine ⟨by have := hc.bounded; omega, ?_⟩
  rw [List.nodup_iff_pairwise_ne, List.pairwise_iff_getElem]
  intro i j hi hj hij heq
  simp only [List.length_map] at hi hj
  obtain ⟨s, a1, a2, -⟩ := hc.fromEntry i _ (List.getElem?_eq_getElem hi)
  obtain ⟨t, b1, b2, -⟩ := hc.fromEntry j _ (List.getElem?_eq_getElem hj)
  simp only [List.getElem_map] at heq
  have : s = t := by omega
  subst this
  rw [a2] at b2
  have := Option.some.inj b2
  omega

/-- **C33** (the weights) after any history, what the cache holds for a state is what
`FillWeightVector` computes for it with an empty cache, of that or any other size. -/
theorem C33_afresh {m : Model A.C} (hm : Usable m) {encode : Int → Str}
    (he : Encodes encode m.static.base.symbols m.static.base.oov) :
    ∃ bound, ∀ fuel, bound ≤ fuel → ∀ I c, Uses encode fuel m.static m.imp m.cache I c →
      ∀ (s : Nat) (v : List A.C), s < m.static.base.fst.states.length → cached c s = .ok v →
      ∀ k, 1 ≤ k → ∃ c', fillWeights A (m.static.withCache k) fuel s (emptyCache m.static) = .ok (v, c') := by
  obtain ⟨bound, hb⟩ := enough_of_acyclic hm.acyclic
  obtain ⟨u, hu, hf, hB, hr, hi0⟩ := hm.toLoaded.fit
  have hS := hm.toLoaded.sound hm.labels
  obtain ⟨hmax, hc0⟩ := hm.toLoaded.cache hm.labels hm.hiOrder
  refine ⟨bound, fun fuel hfu I c h s v hs hv k hk => ?_⟩
  obtain ⟨-, -, hc⟩ := h.inv hm he (hb fuel hfu) hi0 hc0
  have hv' : Vec m.static.base.fst m.static.tables s v := by
    rcases hc.index_cases hs with ⟨g1, g2⟩ | ⟨k, e, g1, g2, g3, g4, g5, g6⟩
    · simp only [cached, g1, ok_bind] at hv
      simp [getI] at hv
    · simp only [cached, g1, ok_bind, g3] at hv
      cases hv
      exact g6
  obtain ⟨rank, hrk, hle⟩ := hb fuel hfu
  have hS' : Sound (m.static.withCache k) := ⟨hS.closed, hS.pos, hS.labels⟩
  obtain ⟨v', c', g1, g2, -⟩ := fillWeights_ok (M := m.static.withCache k) hS' hk hrk fuel s
    (emptyCache m.static) (by have := hle s hs; omega) hs (CacheInv.empty (m.static.withCache k))
  have : v' = v := Vec.unique (f := m.static.base.fst) (T := m.static.tables) g2 hv'
  subst this
  exact ⟨c', g1⟩

/-- The answer of `ExtractLMScores` after a history, whatever the cache. -/
theorem extract_any {m : Model A.C} (hm : Usable m) {fuel : Nat}
    (hfu : Enough m.static.base.fst fuel) {I : Implicit}
    (hI : Inv m.static (sortedWords m.static.base.symbols m.static.base.oov) I) {s : Int} (hs : -1 ≤ s)
    (resp : LMScores A.D) : ∃ r : Bool × LMScores A.D, r.1 = true ∧
      r.2.symbols.length + resp.probs.length = resp.symbols.length + r.2.probs.length ∧
      (∀ k c, 1 ≤ k → CacheInv (m.static.withCache k) c →
        ∃ c', extractLMScores A fuel ⟨m.static.withCache k, I, c⟩ s resp = .ok (r.1, r.2, c')) ∧
      ∀ I' k c, Inv m.static (sortedWords m.static.base.symbols m.static.base.oov) I' → Grows I I' →
        s < I.total → 1 ≤ k → CacheInv (m.static.withCache k) c →
        ∃ c', extractLMScores A fuel ⟨m.static.withCache k, I', c⟩ s resp = .ok (r.1, r.2, c') := by
  obtain ⟨u, hu, hf, hB, hr, hi0⟩ := hm.toLoaded.fit
  have hS := hm.toLoaded.sound hm.labels
  obtain ⟨V, hV⟩ := Serves.exists hS hm.acyclic
  obtain ⟨r, g1, gt, g2⟩ := pureExtract_total hr hf rfl hfu V hI hs resp
  refine ⟨r, gt, g2, ?_, ?_⟩
  · intro k c hk hc
    have hS' : Sound (m.static.withCache k) := ⟨hS.closed, hS.pos, hS.labels⟩
    rw [← pureExtract_withCache fuel V k] at g1
    obtain ⟨c', e1, -⟩ := extract_pure (M := m.static.withCache k) hS' hk hfu (V := V) hV hc g1
      (fun x hx hb => hI.model_state (checkCurrentState_nonneg hf hs) hx hb)
    exact ⟨c', e1⟩
  · intro I' k c hI' hg hst hk hc
    have hS' : Sound (m.static.withCache k) := ⟨hS.closed, hS.pos, hS.labels⟩
    have ht := hI.explicit_lt hf.unigram.2
    have ht' := hI.explicit_lt (q := m.static.base.fst.start) hf.closed.1
    rw [← pureExtract_grows fuel V hI hI' hg hst (by rw [hf.unigram.1]; omega) (by omega) resp,
      ← pureExtract_withCache fuel V k] at g1
    obtain ⟨c', e1, -⟩ := extract_pure (M := m.static.withCache k) hS' hk hfu (V := V) hV hc g1
      (fun x hx hb => hI'.model_state (checkCurrentState_nonneg hf hs) hx hb)
    exact ⟨c', e1⟩

theorem CacheInv.withCache {M : Static A.C} {c : Cache A.C} (h : CacheInv M c) :
    CacheInv (M.withCache M.maxCache) c := h

/-- **C33** (transparent) after any history, `ExtractLMScores` answers without fault, and answers the same
with the cache it has as with an empty one, of that or any other size. -/
theorem C33_transparent {m : Model A.C} (hm : Usable m) {encode : Int → Str}
    (he : Encodes encode m.static.base.symbols m.static.base.oov) :
    ∃ bound, ∀ fuel, bound ≤ fuel → ∀ I c, Uses encode fuel m.static m.imp m.cache I c →
      ∀ s, -1 ≤ s → ∀ resp, ∃ resp' c', extractLMScores A fuel ⟨m.static, I, c⟩ s resp = .ok (true, resp', c') ∧
        ∀ k, 1 ≤ k → ∃ c'', extractLMScores A fuel ⟨m.static.withCache k, I, emptyCache m.static⟩ s resp =
          .ok (true, resp', c'') := by
  obtain ⟨bound, hb⟩ := enough_of_acyclic hm.acyclic
  obtain ⟨u, hu, hf, hB, hr, hi0⟩ := hm.toLoaded.fit
  obtain ⟨hmax, hc0⟩ := hm.toLoaded.cache hm.labels hm.hiOrder
  refine ⟨bound, fun fuel hfu I c h s hs resp => ?_⟩
  obtain ⟨hI, -, hc⟩ := h.inv hm he (hb fuel hfu) hi0 hc0
  obtain ⟨r, ht, -, g1, -⟩ := extract_any hm (hb fuel hfu) hI hs resp
  rw [ht] at g1
  obtain ⟨c', g2⟩ := g1 m.static.maxCache c hmax hc
  exact ⟨r.2, c', g2, fun k hk => g1 k _ hk (CacheInv.empty (m.static.withCache k))⟩

theorem findScore_total (A : Arith) (sym : Int) : ∀ (ss : List Str) (ps : List A.D),
    ps.length ≤ ss.length → ∃ x, findScore A sym ss ps = .ok x := by
  intro ss
  induction ss with
  | nil =>
    intro ps h
    have : ps = [] := List.length_eq_zero_iff.1 (by simpa using h)
    subst this
    exact ⟨_, rfl⟩
  | cons s ss ih =>
    intro ps h
    cases ps with
    | nil => exact ⟨_, rfl⟩
    | cons p ps =>
      simp only [findScore]
      split <;> split
      · exact ⟨_, rfl⟩
      · exact ih ps (by simpa using h)
      · exact ⟨_, rfl⟩
      · exact ih ps (by simpa using h)

/-- **C33** (transparent) the same for `SymLMScore`. -/
theorem C33_transparent_score {m : Model A.C} (hm : Usable m) {encode : Int → Str}
    (he : Encodes encode m.static.base.symbols m.static.base.oov) :
    ∃ bound, ∀ fuel, bound ≤ fuel → ∀ I c, Uses encode fuel m.static m.imp m.cache I c →
      ∀ s, -1 ≤ s → ∀ sym, ∃ x c', symLMScore A fuel ⟨m.static, I, c⟩ s sym = .ok (x, c') ∧
        ∀ k, 1 ≤ k → ∃ c'', symLMScore A fuel ⟨m.static.withCache k, I, emptyCache m.static⟩ s sym =
          .ok (x, c'') := by
  obtain ⟨bound, hb⟩ := enough_of_acyclic hm.acyclic
  obtain ⟨u, hu, hf, hB, hr, hi0⟩ := hm.toLoaded.fit
  obtain ⟨hmax, hc0⟩ := hm.toLoaded.cache hm.labels hm.hiOrder
  refine ⟨bound, fun fuel hfu I c h s hs sym => ?_⟩
  obtain ⟨hI, -, hc⟩ := h.inv hm he (hb fuel hfu) hi0 hc0
  obtain ⟨r, -, hl, g1, -⟩ := extract_any hm (hb fuel hfu) hI hs (noScores A)
  simp only [noScores, List.length_nil] at hl
  obtain ⟨x, hx⟩ := findScore_total A sym r.2.symbols r.2.probs (by omega)
  have key : ∀ k d, 1 ≤ k → CacheInv (m.static.withCache k) d →
      ∃ d', symLMScore A fuel ⟨m.static.withCache k, I, d⟩ s sym =
        .ok (if r.1 then x else A.inf, d') := by
    intro k d hk hd
    obtain ⟨d', g2⟩ := g1 k d hk hd
    refine ⟨d', ?_⟩
    simp only [symLMScore, g2, ok_bind]
    cases r.1
    · rfl
    · simp only [if_true, hx, ok_bind]
  obtain ⟨c', g2⟩ := key m.static.maxCache c hmax hc
  exact ⟨_, c', g2, fun k hk => key k _ hk (CacheInv.empty (m.static.withCache k))⟩

/-- **C33** (repeatable) a state that exists is answered for in the same way ever after. -/
theorem C33_repeatable {m : Model A.C} (hm : Usable m) {encode : Int → Str}
    (he : Encodes encode m.static.base.symbols m.static.base.oov) :
    ∃ bound, ∀ fuel, bound ≤ fuel → ∀ I c I' c', Uses encode fuel m.static m.imp m.cache I c →
      Uses encode fuel m.static I c I' c' → ∀ s, -1 ≤ s → s < I.total → ∀ resp b resp' d,
      extractLMScores A fuel ⟨m.static, I, c⟩ s resp = .ok (b, resp', d) →
      ∃ d', extractLMScores A fuel ⟨m.static, I', c'⟩ s resp = .ok (b, resp', d') := by
  obtain ⟨bound, hb⟩ := enough_of_acyclic hm.acyclic
  obtain ⟨u, hu, hf, hB, hr, hi0⟩ := hm.toLoaded.fit
  obtain ⟨hmax, hc0⟩ := hm.toLoaded.cache hm.labels hm.hiOrder
  refine ⟨bound, fun fuel hfu I c I' c' h h' s hs hst resp b resp' d hx => ?_⟩
  obtain ⟨hI, -, hc⟩ := h.inv hm he (hb fuel hfu) hi0 hc0
  obtain ⟨hI', hg, hc'⟩ := h'.inv hm he (hb fuel hfu) hI hc
  obtain ⟨r, -, -, g1, g2⟩ := extract_any hm (hb fuel hfu) hI hs resp
  obtain ⟨d1, e1⟩ := g1 m.static.maxCache c hmax hc
  obtain ⟨d2, e2⟩ := g2 I' m.static.maxCache c' hI' hg hst hmax hc'
  change extractLMScores A fuel ⟨m.static, I, c⟩ s resp = _ at e1
  rw [hx] at e1
  cases e1
  exact ⟨d2, e2⟩

/-! ## A model meeting the hypotheses -/

theorem demo_usable : Usable (A := Arith.unit) demo :=
  { toLoaded := demo_loaded, labels := by decide, hiOrder := by decide }

/-- The demo model with room for one entry (its order would be 0). -/
def demoSmall : Static Unit := demo.static.withCache 1

/-- A use of the cache: state 2 is not in it, and is put there. -/
example : (extractLMScores Arith.unit 10 demo 2 (noScores Arith.unit)).map (fun r => (r.1, r.2.2.index)) =
    .ok (true, [0, 1, 2]) := by rfl

/-- With room for one entry, another entry is thrown out. -/
example : (extractLMScores Arith.unit 10 ⟨demoSmall, demo.imp, emptyCache demoSmall⟩ 2
    (noScores Arith.unit)).map (fun r => (r.1, r.2.2.index, r.2.2.entries.length)) =
    .ok (true, [-1, -1, 0], 1) := by rfl

end Mozolm.Word
