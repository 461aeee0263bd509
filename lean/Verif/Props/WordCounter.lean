import Mathlib.Data.Fintype.EquivFin
import Mathlib.Data.Fintype.Prod
import Mathlib.Data.Fintype.Option
import Mathlib.Tactic.Ring
import Verif.Word.Ticks

/-!
# C94, C95: what a word model counts

`cache_accessed_` and the times in the cache are of type `int` (ngram_word_fst_model.h:154, :228), and every use of an entry
adds one; state ids are of type `int` too, and typing makes new ones.  In the model both are unbounded.  The counter is
bounded by the number of questions, and passes any bound; the ids are bounded by the size of the automaton and the
vocabulary, whatever is typed.
-/

namespace Mozolm.Word

variable {A : Arith}

/-- A history of calls with its number of questions, i.e. calls of `ExtractLMScores` and `SymLMScore` (at any state but those
below -1); `NextState` is called at existing states with any symbol. -/
inductive Asks (encode : Int → Str) (fuel : Nat) (M : Static A.C) :
    Nat → Implicit → Cache A.C → Implicit → Cache A.C → Prop
  | refl (I c) : Asks encode fuel M 0 I c I c
  | next {n I J K c d} {s sym r : Int} : Asks encode fuel M n I c J d → 0 ≤ s →
      nextState A encode fuel M J s sym = .ok (r, K) → Asks encode fuel M n I c K d
  | extract {n I J c d d'} {s : Int} {resp resp' : LMScores A.D} {b : Bool} : Asks encode fuel M n I c J d →
      -1 ≤ s → extractLMScores A fuel ⟨M, J, d⟩ s resp = .ok (b, resp', d') → Asks encode fuel M (n + 1) I c J d'
  | score {n I J c d d'} {s sym : Int} {x : A.C} : Asks encode fuel M n I c J d →
      -1 ≤ s → symLMScore A fuel ⟨M, J, d⟩ s sym = .ok (x, d') → Asks encode fuel M (n + 1) I c J d'

theorem Asks.uses {encode : Int → Str} {fuel n : Nat} {M : Static A.C} {I J : Implicit} {c d : Cache A.C}
    (h : Asks encode fuel M n I c J d) : Uses encode fuel M I c J d := by
  induction h with
  | refl => exact .refl _ _
  | next _ h1 h2 ih => exact .next ih h1 h2
  | extract _ h1 h2 ih => exact .extract ih h1 h2
  | score _ h1 h2 ih => exact .score ih h1 h2

/-- Every history has a number of questions. -/
theorem Uses.asks {encode : Int → Str} {fuel : Nat} {M : Static A.C} {I J : Implicit} {c d : Cache A.C}
    (h : Uses encode fuel M I c J d) : ∃ n, Asks encode fuel M n I c J d := by
  induction h with
  | refl => exact ⟨0, .refl _ _⟩
  | next _ h1 h2 ih => obtain ⟨n, ih⟩ := ih; exact ⟨n, .next ih h1 h2⟩
  | extract _ h1 h2 ih => obtain ⟨n, ih⟩ := ih; exact ⟨n + 1, .extract ih h1 h2⟩
  | score _ h1 h2 ih => obtain ⟨n, ih⟩ := ih; exact ⟨n + 1, .score ih h1 h2⟩

/-- The counter when `Read` is done. -/
theorem Usable.counter {m : Model A.C} (hm : Usable m) {D : Nat} (hd : Depth m.static.base.fst D) :
    0 ≤ m.cache.accessed ∧ m.cache.accessed ≤ 2 * D + 1 := by
  have hS := hm.toLoaded.sound hm.labels
  obtain ⟨hmax, -⟩ := hm.toLoaded.cache hm.labels hm.hiOrder
  obtain ⟨fuel, mc, src, _, h⟩ := hm.toLoaded.readWith
  simp only [Word.readWith] at h
  obtain ⟨T, h1, h⟩ := bind_ok.1 h
  cases T with
  | none => cases h
  | some T =>
    simp only at h
    obtain ⟨r, h2, h⟩ := bind_ok.1 h
    cases r with
    | none => cases h
    | some r =>
      obtain ⟨o, i⟩ := r
      simp only at h
      obtain ⟨e, h3, h⟩ := bind_ok.1 h
      by_cases he : e.1 = true
      · rw [if_pos he] at h
        have hm' := Option.some.inj (Except.ok.inj h)
        have hst : m.static = { base := m.static.base, tables := T, oovState := o, maxCache := if mc > m.static.base.hiOrder then mc else 2000 } := by
          rw [← hm']
        rw [← hst] at h3
        have h3' := ensureCacheIndex_mono (D + 2) fuel h3
        obtain ⟨e1, e2⟩ := e
        have := ensure_ticks hS hmax hd (fuel := fuel + (D + 2)) (by omega) hm.closed.1 (CacheInv.empty m.static) h3'
        have he2 : e2 = m.cache := by rw [← hm']
        rw [← he2]
        simp only at this
        omega
      · rw [if_neg he] at h; cases h

theorem Asks.ticks {m : Model A.C} (hm : Usable m) {encode : Int → Str}
    (he : Encodes encode m.static.base.symbols m.static.base.oov) {D fuel n : Nat} (hd : Depth m.static.base.fst D)
    (hf : D + 2 ≤ fuel) {I : Implicit} {c : Cache A.C} (h : Asks encode fuel m.static n m.imp m.cache I c) :
    0 ≤ c.accessed ∧ c.accessed ≤ (2 * D + 1) + n * (2 * D + 2) := by
  obtain ⟨u, hu, hfit, hB, hr, hi0⟩ := hm.toLoaded.fit
  have hS := hm.toLoaded.sound hm.labels
  obtain ⟨hmax, hc0⟩ := hm.toLoaded.cache hm.labels hm.hiOrder
  have hread := hm.counter hd
  have ext : ∀ {n : Nat} {J : Implicit} {d d' : Cache A.C} {s : Int} {resp resp' : LMScores A.D} {b : Bool},
      Asks encode fuel m.static n m.imp m.cache J d → -1 ≤ s →
      extractLMScores A fuel ⟨m.static, J, d⟩ s resp = .ok (b, resp', d') →
      0 ≤ d.accessed ∧ d.accessed ≤ (2 * D + 1) + n * (2 * D + 2) →
      0 ≤ d'.accessed ∧ d'.accessed ≤ (2 * D + 1) + ((n + 1 : Nat) : Int) * (2 * D + 2) := by
    intro n J d d' s resp resp' b hJ hs hx hb
    obtain ⟨hI, -, hc⟩ := hJ.uses.inv hm he (hd.enough hf) hi0 hc0
    obtain ⟨t1, t2, -⟩ := extract_ticks hS hmax hd hf hc
      (fun x hx hb => hI.model_state (checkCurrentState_nonneg hfit hs) hx hb) hx
    rw [Int.natCast_add, Int.add_mul]
    omega
  generalize hm0 : m.imp = I0 at h ext
  generalize hm1 : m.cache = c0 at h ext hread
  induction h with
  | refl => exact ⟨hread.1, by rw [Int.natCast_zero, Int.zero_mul]; omega⟩
  | next h1 hs hn ih => exact ih hm0 hm1 @ext hread
  | extract h1 hs hx ih => exact ext h1 hs hx (ih hm0 hm1 @ext hread)
  | score h1 hs hx ih =>
    simp only [symLMScore] at hx
    obtain ⟨r, e1, hx⟩ := bind_ok.1 hx
    obtain ⟨b, resp', d2⟩ := r
    have := ext h1 hs e1 (ih hm0 hm1 @ext hread)
    simp only at hx
    split at hx
    · obtain ⟨x, -, hx⟩ := bind_ok.1 hx
      cases hx; exact this
    · cases hx; exact this

/-- **C94** (bound) if no chain of backoff transitions is longer than `D`, the counter, and with it every time in the
cache, is at most `2 D + 1` when the model is loaded plus `2 D + 2` for every question asked, whatever is asked and typed. -/
theorem C94_bound {m : Model A.C} (hm : Usable m) {encode : Int → Str}
    (he : Encodes encode m.static.base.symbols m.static.base.oov) {D fuel n : Nat} (hd : Depth m.static.base.fst D)
    (hf : D + 2 ≤ fuel) {I : Implicit} {c : Cache A.C} (h : Asks encode fuel m.static n m.imp m.cache I c) :
    0 ≤ c.accessed ∧ c.accessed ≤ (2 * D + 1) + n * (2 * D + 2) ∧ ∀ e ∈ c.entries, e.lastAccessed < c.accessed := by
  obtain ⟨h1, h2⟩ := h.ticks hm he hd hf
  exact ⟨h1, h2, (C66_times hm.toLoaded h.uses).past⟩

/-- **C94** (safe) no `int` that counts accesses overflows as long as few enough questions are asked. -/
theorem C94_safe {m : Model A.C} (hm : Usable m) {encode : Int → Str}
    (he : Encodes encode m.static.base.symbols m.static.base.oov) {D fuel n N : Nat} (hd : Depth m.static.base.fst D)
    (hf : D + 2 ≤ fuel) {I : Implicit} {c : Cache A.C} (h : Asks encode fuel m.static n m.imp m.cache I c)
    (hn : n ≤ N) (hN : (2 * D + 2) * (N + 1) ≤ 2147483648) : c.accessed ≤ 2147483647 := by
  obtain ⟨-, h2⟩ := h.ticks hm he hd hf
  have h3 : (2 * D + 2) * (n + 1) ≤ (2 * D + 2) * (N + 1) := Nat.mul_le_mul_left _ (by omega)
  have h4 : (2 * D + 2) * (n + 1) = n * (2 * D + 2) + (2 * D + 2) := by ring
  have h5 : ((n * (2 * D + 2) : Nat) : Int) = n * (2 * D + 2) := by push_cast; rfl
  rw [← h5] at h2
  omega

/-- **C94** (every loaded model has a depth) so the theorems above are about every model. -/
theorem C94_depth {m : Model A.C} (hm : Usable m) : ∃ D, Depth m.static.base.fst D :=
  depth_of_acyclic hm.closed hm.acyclic

/-- **C94** that the counter never overflows is false: `N` questions for the scores of the start state of any loaded model
are all answered, and take it to `N` or more. -/
theorem C94_overflow_false {m : Model A.C} (hm : Usable m) {encode : Int → Str}
    (he : Encodes encode m.static.base.symbols m.static.base.oov) {D fuel : Nat} (hd : Depth m.static.base.fst D)
    (hf : D + 2 ≤ fuel) (N : Nat) :
    ∃ c, Asks encode fuel m.static N m.imp m.cache m.imp c ∧ (N : Int) ≤ c.accessed := by
  obtain ⟨u, hu, hfit, hB, hr, hi0⟩ := hm.toLoaded.fit
  have hS := hm.toLoaded.sound hm.labels
  obtain ⟨hmax, hc0⟩ := hm.toLoaded.cache hm.labels hm.hiOrder
  have hWne : sortedWords m.static.base.symbols m.static.base.oov ≠ [] := hfit.vocabulary.words_ne
  induction N with
  | zero => exact ⟨m.cache, .refl _ _, (hm.counter hd).1⟩
  | succ N ih =>
    obtain ⟨c, h1, h2⟩ := ih
    obtain ⟨hI, -, hc⟩ := h1.uses.inv hm he (hd.enough hf) hi0 hc0
    have hlt : ((m.static.base.fst.start : Nat) : Int) < m.static.base.fst.states.length := by
      have := hm.closed.1; omega
    obtain ⟨r, hrt, -, g1, -⟩ := extract_any hm (hd.enough hf) hI (s := (m.static.base.fst.start : Int)) (by omega) (noScores A)
    obtain ⟨c', hx⟩ := g1 m.static.maxCache c hmax hc
    change extractLMScores A fuel ⟨m.static, m.imp, c⟩ _ _ = _ at hx
    refine ⟨c', .extract h1 (by omega) hx, ?_⟩
    -- the start state is scored
    have hx0 := hx
    simp only [extractLMScores, NGram.checkCurrentState, if_neg (show ¬ ((m.static.base.fst.start : Int) = -1) by omega),
      getNextCharEnds, if_pos hlt, ok_bind] at hx
    obtain ⟨f1, f2⟩ := hr.first.ne_nil hWne
    cases hends : m.static.tables.firstEnds with
    | nil => rw [hends] at f2; exact absurd (List.length_eq_zero_iff.1 (by simpa using f2)) f1
    | cons e0 es =>
      rw [hends] at hx
      simp only at hx
      have hlt' : ((m.static.base.fst.start : Nat) : Int) < m.imp.explicit := by rw [hI.explicit]; exact hlt
      simp only [info, if_pos hlt', ok_bind, scoresAt, hI.eb, if_neg (show ¬ ((1 : Int) < 1) by omega)] at hx
      obtain ⟨c1, k, q1, q2, q3⟩ := ensureCacheIndex_ok hS hmax (hd.enough hf) hm.closed.1 hc
      have ht := ensure_ticks hS hmax hd hf hm.closed.1 hc q1
      rw [q1] at hx
      simp only [ok_bind, if_true] at hx
      obtain ⟨c2, hc2, hx⟩ := bind_ok.1 hx
      obtain ⟨raw, hraw, hx⟩ := bind_ok.1 hx
      obtain ⟨n, -, hx⟩ := bind_ok.1 hx
      have ht2 := touch_ticks hc2
      obtain ⟨c2', t1, t2, t3⟩ := touch_ok q2 q3
      rw [t1] at hc2
      cases hc2
      have := rawScores_hit (k := k) (c := c2) (by rw [t3]; exact q3) hraw
      have hcc : c' = c2 := by
        rw [← this]
        exact (congrArg (fun x => x.2.2) (Except.ok.inj hx)).symm
      rw [hcc]
      push_cast
      omega

/-! ## State ids -/

theorem maxLength_le (t : SymbolTable) {L : Int} (h0 : 0 ≤ L) (h : ∀ e ∈ t, (e.2.length : Int) ≤ L) : maxLength t ≤ L := by
  have : ∀ (t : SymbolTable) (m : Int), m ≤ L → (∀ e ∈ t, (e.2.length : Int) ≤ L) →
      t.foldl (fun m e => if ((strSplitByChar e.2).length : Int) > m then ((strSplitByChar e.2).length : Int) else m) m ≤ L := by
    intro t
    induction t with
    | nil => intro m hm _; exact hm
    | cons e t ih =>
      intro m hm h
      refine ih _ ?_ (fun x hx => h x (.tail _ hx))
      have := h e (.head _)
      simp only [strSplitByChar, List.length_map]
      split <;> omega
  exact this t 0 h0 h

/-- Prefix states are told apart by their n-gram state, prefix length and first word. -/
theorem Inv.infos_length {M : Static A.C} {W : List Str} {I : Implicit} (hI : Inv M W I) {L V : Nat}
    (hL : I.maxPrefix ≤ L) (hV : W.length ≤ V) : I.infos.length ≤ 1 + M.base.fst.states.length * L * V := by
  have key : ∀ i : Fin I.infos.length, ∃ y : Option (Fin M.base.fst.states.length × Fin L × Fin V),
      ∀ x, I.infos[i.val]? = some x → match y with
        | none => x = ⟨-1, 1, -1, -1⟩
        | some (a, b, d) => x.modelState = a.val ∧ x.prefixLength = b.val + 1 ∧ x.beginIndex = d.val + 1 := by
    intro i
    obtain ⟨x, hx⟩ := exists_getElem?_of_lt i.isLt
    obtain ⟨k, mp, a1, a2, a3⟩ := hI.wf.stored i x hx
    have hk := lt_of_getElem?_eq_some a2
    have hb := hI.wf.bound
    have hkL : k < L := by omega
    rcases hI.good i x hx with h | ⟨h1, h2, h3⟩
    · refine ⟨none, fun y hy => ?_⟩
      rw [hx] at hy; cases hy
      exact h
    · have h4 : 1 ≤ x.beginIndex ∧ x.beginIndex ≤ V := by
        rcases h3 with ⟨p, _, _, g⟩ | ⟨j, w, g1, g2, _⟩
        · have := g.1; have := g.2.1; have := g.2.2.1
          omega
        · have := lt_of_getElem?_eq_some g1
          omega
      refine ⟨some (⟨x.modelState.toNat, by omega⟩, ⟨k, hkL⟩, ⟨(x.beginIndex - 1).toNat, by omega⟩), fun y hy => ?_⟩
      rw [hx] at hy; cases hy
      exact ⟨by simp only; omega, a1, by simp only; omega⟩
  choose g hg using key
  have hinj : Function.Injective g := by
    intro i j hij
    obtain ⟨x, hx⟩ := exists_getElem?_of_lt i.isLt
    obtain ⟨y, hy⟩ := exists_getElem?_of_lt j.isLt
    have h1 := hg i x hx
    have h2 := hg j y hy
    rw [hij] at h1
    apply Fin.ext
    rcases hgj : g j with _ | ⟨a, b, d⟩
    · rw [hgj] at h1 h2
      simp only at h1 h2
      exact hI.wf.unique hx hy (by rw [h1, h2]) (by rw [h1, h2]) (by rw [h1, h2])
    · rw [hgj] at h1 h2
      simp only at h1 h2
      exact hI.wf.unique hx hy (by rw [h1.1, h2.1]) (by rw [h1.2.1, h2.2.1]) (by rw [h1.2.2, h2.2.2])
  have := Fintype.card_le_of_injective g hinj
  simp only [Fintype.card_fin, Fintype.card_option, Fintype.card_prod] at this
  rw [Nat.mul_assoc]
  omega

theorem readWith_maxPrefix {fuel : Nat} {maxCache : Int} {b : NGram.Model A.C} {m : Model A.C}
    (hv : Vocabulary b.symbols b.oov) (h : readWith A fuel maxCache b = .ok (some m)) :
    m.imp.maxPrefix = maxLength b.symbols := by
  obtain ⟨T, h1, h2⟩ := buildTables_spec hv.dense hv.isUnknown
  obtain ⟨I, i1, -, -, -, -, -, i7, -⟩ := establishStates_ok hv h2
  simp only [readWith, h1, ok_bind, i1] at h
  obtain ⟨e, -, h⟩ := bind_ok.1 h
  split at h
  · cases h; exact i7
  · cases h

/-- **C95** (bound) whatever is typed and asked, in whatever order and number, the model never has more states than
`N + 1 + N L V`: `N` states of the automaton, the out-of-vocabulary state, and one per state, prefix length up to the
longest symbol `L` and word of the `V` entries of the symbol table; all state ids it gives out are below that. -/
theorem C95_states {m : Model A.C} (hm : Usable m) {encode : Int → Str}
    (he : Encodes encode m.static.base.symbols m.static.base.oov) {L : Nat}
    (hL : ∀ e ∈ m.static.base.symbols, e.2.length ≤ L) :
    ∃ bound, ∀ fuel, bound ≤ fuel → ∀ I c, Uses encode fuel m.static m.imp m.cache I c →
      I.total ≤ m.static.base.fst.states.length + 1 +
        ((m.static.base.fst.states.length * L * m.static.base.symbols.length : Nat) : Int) ∧
      ∀ (s sym r : Int) (I' : Implicit), 0 ≤ s → nextState A encode fuel m.static I s sym = .ok (r, I') →
        0 ≤ r ∧ r < m.static.base.fst.states.length + 1 +
          ((m.static.base.fst.states.length * L * m.static.base.symbols.length : Nat) : Int) := by
  obtain ⟨bound, hb⟩ := enough_of_acyclic hm.acyclic
  obtain ⟨u, hu, hf, hB, hr, hi0⟩ := hm.toLoaded.fit
  obtain ⟨hmax, hc0⟩ := hm.toLoaded.cache hm.labels hm.hiOrder
  have hmp : m.imp.maxPrefix ≤ L := by
    obtain ⟨fuel, mc, src, _, h2⟩ := hm.toLoaded.readWith
    rw [readWith_maxPrefix hm.vocabulary h2]
    exact maxLength_le _ (by omega) (fun e he => by have := hL e he; omega)
  have hWl : (sortedWords m.static.base.symbols m.static.base.oov).length ≤ m.static.base.symbols.length := by
    have := hm.vocabulary.dense.words_length hm.vocabulary.isUnknown
    omega
  have key : ∀ I, Inv m.static (sortedWords m.static.base.symbols m.static.base.oov) I → Grows m.imp I →
      I.total ≤ m.static.base.fst.states.length + 1 +
        ((m.static.base.fst.states.length * L * m.static.base.symbols.length : Nat) : Int) := by
    intro I hI hg
    have := hI.infos_length (L := L) (V := m.static.base.symbols.length) (by rw [hg.mp]; exact hmp) hWl
    rw [hI.wf.total, hI.explicit]
    omega
  refine ⟨bound, fun fuel hfu I c h => ?_⟩
  obtain ⟨hI, hg, hc⟩ := h.inv hm he (hb fuel hfu) hi0 hc0
  refine ⟨key I hI hg, fun s sym r I' hs hn => ?_⟩
  obtain ⟨r', J, g1, g2, g3, g4⟩ := nextState_total hr hf rfl he (hb fuel hfu) hI hs sym
  rw [hn] at g1
  cases g1
  have := key _ g2 (hg.trans g3)
  have := g4
  omega

/-! ## A model meeting the hypotheses -/

theorem demo_depth : Depth (A := Arith.unit) demoFst 1 := by
  have key : ∀ s w t, NGram.IsBackoff demoFst s w t → s ≠ 0 ∧ t = 0 := by
    rintro s w t ⟨st, pre, post, h1, h2, _⟩
    have hm : (⟨0, w, t⟩ : Arc Unit) ∈ st.arcs := by rw [h2]; simp
    match s, h1 with
    | 0, h1 => cases h1; simp at hm
    | 1, h1 => cases h1; simp at hm; subst hm; decide
    | 2, h1 => cases h1; simp at hm; subst hm; decide
    | n + 3, h1 => simp [demoFst] at h1
  intro s ws t h
  cases h with
  | here => exact Nat.zero_le _
  | step h1 h2 =>
    cases h2 with
    | here => exact Nat.le_refl _
    | step h3 _ => exact absurd (key _ _ _ h1).2 (key _ _ _ h3).1

/-- C94: the bound is attained when the model is loaded, and by a question at a state that is not in a cache of two
entries: the demo has depth 1, loading it uses the cache 3 times and the first question at state 2 makes it 6. -/
example : demo.cache.accessed = 2 * 1 + 1 ∧
    (extractLMScores Arith.unit 10 demo 2 (noScores Arith.unit)).map (fun r => r.2.2.accessed) = .ok (3 + 3) := by
  exact ⟨rfl, by rfl⟩

/-- C94: with room for a single entry each question at state 2 after one at state 1 uses the cache `2 * 1 + 2` times. -/
example : (do
    let r ← extractLMScores Arith.unit 10 ⟨demoSmall, demo.imp, emptyCache demoSmall⟩ 1 (noScores Arith.unit)
    let r' ← extractLMScores Arith.unit 10 ⟨demoSmall, demo.imp, r.2.2⟩ 2 (noScores Arith.unit)
    .ok (r.2.2.accessed, r'.2.2.accessed) : Except Fault (Int × Int)) = .ok (4, 8) := by rfl

/-- C94: 2^31 questions to the demo model overflow its counter; half a billion do not. -/
example : (∃ c, Asks (A := Arith.unit) (fun c => if c < 0 then [] else [c.toNat]) 3 demo.static 2147483648 demo.imp demo.cache
      demo.imp c ∧ 2147483647 < c.accessed) ∧
    ∀ n I c, Asks (A := Arith.unit) (fun c => if c < 0 then [] else [c.toNat]) 3 demo.static n demo.imp demo.cache I c →
      n ≤ 500000000 → c.accessed ≤ 2147483647 := by
  refine ⟨?_, fun n I c h hn => C94_safe demo_usable demo_encodes demo_depth (by omega) h hn (by omega)⟩
  obtain ⟨c, h1, h2⟩ := C94_overflow_false demo_usable demo_encodes demo_depth (fuel := 3) (by omega) 2147483648
  exact ⟨c, h1, by omega⟩

/-- C95: the demo model never has more than 3 + 1 + 3 * 2 * 4 = 28 states, whatever is typed; typing "a" makes one. -/
example : (∃ bound, ∀ fuel, bound ≤ fuel → ∀ I c, Uses (A := Arith.unit) (fun c => if c < 0 then [] else [c.toNat]) fuel
      demo.static demo.imp demo.cache I c → I.total ≤ 28) ∧
    (nextState Arith.unit (fun c => if c < 0 then [] else [c.toNat]) 10 demo.static demo.imp 1 97).map
      (fun r => (r.1, r.2.total)) = .ok (4, 5) := by
  refine ⟨?_, by rfl⟩
  obtain ⟨bound, h⟩ := C95_states demo_usable demo_encodes (L := 2) (by decide)
  exact ⟨bound, fun fuel hf I c hu => (h fuel hf I c hu).1⟩

end Mozolm.Word
