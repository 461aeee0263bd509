import Verif.Word.Cache

/-! # Scores without a cache -/

namespace Mozolm.Word

variable {A : Arith}

/-! ## The next characters -/

theorem charEndsFrom_ok {M : Static A.C} {W : List Str} (hr : Ready M W) {p : Str} (n : Nat) :
    ∀ (rest pre post : List Str) (l : Str) (fuel : Nat) (i final : Int), rest.length ≤ n →
    W = pre ++ l :: (rest ++ post) → (∀ x ∈ l :: rest, p <+: x) → rest.length + 1 < fuel →
    i = (pre.length : Int) + 2 → final = (pre.length : Int) + 1 + rest.length →
    ∃ chars ends, charEndsFrom M p.length final fuel i = .ok (chars, ends) ∧
      Groups p.length (pre.length + 1) (l :: rest) (keyChar l[p.length]? :: chars) (ends ++ [final]) := by
  induction n with
  | zero =>
    intro rest pre post l fuel i final hn hW hp hf hi hfin
    have : rest = [] := List.length_eq_zero_iff.1 (by omega)
    subst this
    obtain ⟨fuel, rfl⟩ : ∃ k, fuel = k + 1 := ⟨fuel - 1, by omega⟩
    simp only [List.length_nil] at hfin
    refine ⟨[], [], by simp only [charEndsFrom]; rw [if_neg (by omega)], ?_⟩
    have := Groups.cons (k := p.length) (b := pre.length + 1) (g := [l]) (rest := [])
      (key := l[p.length]?) (by simp) (by simp) (by simp) (Groups.nil _)
    simp only [List.length_singleton, List.append_nil] at this
    rw [show final = ((pre.length + 1 + 1 : Nat) : Int) - 1 by omega]
    exact this
  | succ n ih =>
    intro rest pre post l fuel i final hn hW hp hf hi hfin
    obtain ⟨fuel, rfl⟩ : ∃ k, fuel = k + 1 := ⟨fuel - 1, by omega⟩
    by_cases hle : i ≤ final
    · obtain ⟨g, ws, h1, h2, h3, h4⟩ := hr.skipSame_ok rest pre l post (fuel + 1) i final hW hp
        (by omega) hi hfin
      subst h1
      simp only [charEndsFrom, if_pos hle, h4, ok_bind]
      simp only [List.length_append] at hfin hn hf
      cases ws with
      | nil =>
        simp only [List.length_nil] at hfin
        rw [if_neg (by omega)]
        refine ⟨[], [], rfl, ?_⟩
        have := Groups.cons (k := p.length) (b := pre.length + 1) (g := l :: g) (rest := [])
          (key := l[p.length]?) (by simp) (by
            intro x hx
            rcases List.mem_cons.1 hx with rfl | hx
            · rfl
            · exact h2 x hx) (by simp) (Groups.nil _)
        simp only [List.append_nil, List.length_cons] at this ⊢
        rw [show final = ((pre.length + 1 + (g.length + 1) : Nat) : Int) - 1 by omega]
        exact this
      | cons w ws =>
        simp only [List.length_cons] at hfin hn hf
        rw [if_pos (by omega)]
        have hWj : W[pre.length + 1 + g.length]? = some w := by
          rw [hW]
          rw [List.getElem?_append_right (by omega)]
          rw [show pre.length + 1 + g.length - pre.length = g.length + 1 by omega]
          rw [List.getElem?_cons_succ, List.append_assoc, List.getElem?_append_right (by omega)]
          simp
        rw [hr.charAt_ok hWj p.length (by omega), ok_bind]
        obtain ⟨chars, ends, e1, e2⟩ := ih ws (pre ++ l :: g) post w fuel (i + g.length + 1) final (by omega)
          (by rw [hW]; simp) (fun x hx => hp x (by
            simp only [List.mem_cons, List.mem_append] at hx ⊢
            rcases hx with h | h
            · exact .inr (.inr (.inl h))
            · exact .inr (.inr (.inr h)))) (by omega) (by simp; omega) (by simp; omega)
        rw [e1, ok_bind]
        refine ⟨_, _, rfl, ?_⟩
        simp only [List.length_append, List.length_cons] at e2
        have := Groups.cons (k := p.length) (b := pre.length + 1) (g := l :: g) (rest := w :: ws)
          (key := l[p.length]?) (by simp) (by
            intro x hx
            rcases List.mem_cons.1 hx with rfl | hx
            · rfl
            · exact h2 x hx) h3 (by
              simp only [List.length_cons]
              rw [show pre.length + 1 + (g.length + 1) = pre.length + (g.length + 1) + 1 by omega]
              exact e2)
        simp only [List.length_cons, List.cons_append] at this ⊢
        rw [show i + (g.length : Int) - 1 = ((pre.length + 1 + (g.length + 1) : Nat) : Int) - 1 by omega]
        exact this
    · have : rest = [] := List.length_eq_zero_iff.1 (by omega)
      subst this
      simp only [List.length_nil] at hfin
      refine ⟨[], [], by simp only [charEndsFrom]; rw [if_neg hle], ?_⟩
      have := Groups.cons (k := p.length) (b := pre.length + 1) (g := [l]) (rest := [])
        (key := l[p.length]?) (by simp) (by simp) (by simp) (Groups.nil _)
      simp only [List.length_singleton, List.append_nil] at this
      rw [show final = ((pre.length + 1 + 1 : Nat) : Int) - 1 by omega]
      exact this

/-- The next characters at a prefix state. -/
theorem charEndsImplicit_ok {M : Static A.C} {W : List Str} (hr : Ready M W) {x : Info} {p : Str}
    (hl : x.prefixLength = p.length) (hx : IsRange W p x.beginIndex x.endIndex) :
    ∃ pre l rest post chars ends, W = pre ++ l :: (rest ++ post) ∧ (∀ y ∈ l :: rest, p <+: y) ∧
      (∀ y ∈ pre, ¬ p <+: y) ∧ (∀ y ∈ post, ¬ p <+: y) ∧ x.beginIndex = ((pre.length + 1 : Nat) : Int) ∧
      charEndsImplicit M x = .ok (keyChar l[p.length]? :: chars, ends) ∧
      Groups p.length (pre.length + 1) (l :: rest) (keyChar l[p.length]? :: chars) ends := by
  obtain ⟨pre, seg, post, hW, hne, hseg, hpre, hpost, hb, he⟩ := hx.split
  cases seg with
  | nil => exact absurd rfl hne
  | cons l rest =>
    simp only [List.length_cons] at he
    have hWl : W[pre.length]? = some l := by rw [hW]; simp
    obtain ⟨chars, ends, e1, e2⟩ := charEndsFrom_ok hr rest.length rest pre post l
      ((x.endIndex - x.beginIndex).toNat + 3) (x.beginIndex + 1) x.endIndex (Nat.le_refl _)
      (by rw [hW]; simp) hseg (by omega) (by omega) (by omega)
    refine ⟨pre, l, rest, post, chars, ends ++ [x.endIndex], by rw [hW]; simp, hseg, hpre, hpost, by omega, ?_, e2⟩
    simp only [charEndsImplicit, hl, hr.charAt_ok hWl p.length hb, ok_bind, e1]

theorem charEndsImplicit_junk {M : Static A.C} {W : List Str} (hr : Ready M W) {x : Info} {j : Nat} {w : Str}
    {k : Nat} (hw : W[j]? = some w) (hk : x.prefixLength = k) (hb : x.beginIndex = (j : Int) + 1)
    (he : x.endIndex = x.beginIndex) (hl : w.length < k) :
    charEndsImplicit M x = .ok ([[32]], [x.endIndex]) := by
  have hnone : w[k]? = none := List.getElem?_eq_none (by omega)
  have hlt : ¬ (x.beginIndex + 1 ≤ x.endIndex) := by omega
  simp only [charEndsImplicit, hk, hr.charAt_ok hw k hb, ok_bind, charEndsFrom, if_neg hlt, hnone]
  rfl

/-! ## The scores -/

/-- The backed-off final cost is always found. -/
theorem backedoffFinal_ok {f : Fst A.C} (hc : NGram.Closed f) {rank : Nat → Nat}
    (hr : ∀ s w t, NGram.IsBackoff f s w t → rank t < rank s) :
    ∀ (n s : Nat) (acc : A.C), rank s + 1 < n → s < f.states.length →
    ∃ x, backedoffFinal A f n s acc = .ok x := by
  intro n
  induction n with
  | zero => intro s acc h; omega
  | succ n ih =>
    intro s acc hn hs
    obtain ⟨st, hst⟩ := exists_getElem?_of_lt hs
    have hne : ¬ ((s : Int) = -1) := by omega
    simp only [backedoffFinal, if_neg hne, NGram.state?_nat, hst]
    by_cases hfin : (!A.isInf st.final) = true
    · rw [if_pos hfin]; exact ⟨_, rfl⟩
    · rw [if_neg hfin]
      rcases NGram.getBackoff_spec f hs with ⟨b, t, hb, e⟩ | ⟨hb, e⟩
      · rw [e, ok_bind]
        simp only
        exact ih t _ (by have := hr _ _ _ hb; omega) (hb.lt hc)
      · rw [e, ok_bind]
        obtain ⟨n, rfl⟩ : ∃ k, n = k + 1 := ⟨n - 1, by omega⟩
        simp [backedoffFinal]

variable {M : Static A.C} {c : Cache A.C}

/-- `GetRangeCost` with the cumulative weights `V`. -/
def pureRange (A : Arith) (V : Int → List A.C) (M : Static A.C) (s b e : Int) : A.C :=
  if s < 0 ∨ s > M.base.fst.states.length ∨ b < 1 ∨ b > e ∨ e ≥ M.tables.order.length then A.inf
  else safeNegLogDiff A (cumAt A (V s) e) (cumAt A (V s) (b - 1))

/-- The costs of consecutive ranges. -/
def pureRanges (A : Arith) (V : Int → List A.C) (M : Static A.C) (s : Int) : List Int → Int → List A.C
  | [], _ => []
  | e :: es, b => pureRange A V M s b e :: pureRanges A V M s es (e + 1)

/-- The scores before renormalising, with the cumulative weights `V`. -/
def pureRaw (A : Arith) (fuel : Nat) (V : Int → List A.C) (M : Static A.C) (cur modelState b : Int)
    (chars : List Str) (ends : List Int) : Except Fault (Raw A.C) :=
  match chars with
  | [] => .error .ub
  | c0 :: _ =>
    if c0 = [32] then do
      let sym ← getI M.tables.order b
      let next ← NGram.nextModelState A M.base.fst M.base.unigram sym fuel modelState
      let final ← getBackedoffFinalCost A fuel M next
      if !A.isInf final then
        match ends with
        | [] => .error .ub
        | e :: es =>
          .ok ⟨[32] :: [] :: chars.tail,
            A.times (pureRange A V M modelState b e) (safeNegLogDiff A A.one final) ::
              A.times (pureRange A V M modelState b e) final :: pureRanges A V M modelState es (e + 1)⟩
      else .ok ⟨chars, pureRanges A V M modelState ends b⟩
    else
      if modelState = cur ∧ !A.isInf (cumAt A (V modelState) 0) then
        .ok ⟨[] :: chars, cumAt A (V modelState) 0 :: pureRanges A V M modelState ends b⟩
      else .ok ⟨chars, pureRanges A V M modelState ends b⟩

/-- `ExtractLMScores` with the cumulative weights `V`. -/
def pureExtract (A : Arith) (fuel : Nat) (V : Int → List A.C) (M : Static A.C) (I : Implicit) (s : Int)
    (resp : LMScores A.D) : Except Fault (Bool × LMScores A.D) := do
  let cur := NGram.checkCurrentState M.base s
  let ce ← getNextCharEnds M I cur
  match ce.2 with
  | [] => .ok (true, resp)
  | _ :: _ => do
    let x ← info I cur
    match x with
    | none => .ok (false, resp)
    | some x =>
      if x.beginIndex < 1 then .ok (false, resp)
      else do
        let raw ← pureRaw A fuel V M cur x.modelState x.beginIndex ce.1 ce.2
        let norm ← Scores.softmaxRenormalize A raw.costs
        .ok (true, { symbols := resp.symbols ++ raw.symbols, probs := resp.probs ++ norm.map A.prob
                     norm := A.ofInt 1 })

/-- `V` gives the cumulative weights. -/
def Serves (V : Int → List A.C) (M : Static A.C) : Prop :=
  ∀ s : Nat, s < M.base.fst.states.length → Vec M.base.fst M.tables s (V s)

theorem Serves.exists (hM : Sound M) (ha : NGram.Acyclic M.base.fst) : ∃ V, Serves V M := by
  classical
  refine ⟨fun s => if h : s.toNat < M.base.fst.states.length then (Vec.exists hM ha h).choose else [], ?_⟩
  intro s hs
  simp only [Int.toNat_natCast]
  rw [dif_pos hs]
  exact (Vec.exists hM ha hs).choose_spec

theorem getRangeCost_ok (hM : Sound M) (hmax : 1 ≤ M.maxCache) {fuel : Nat} (hf : Enough M.base.fst fuel)
    {V : Int → List A.C} (hV : Serves V M) {s : Nat} (hs : s < M.base.fst.states.length)
    (hc : CacheInv M c) (b e : Int) :
    ∃ c', getRangeCost A fuel M s b e c = .ok (pureRange A V M s b e, c') ∧ CacheInv M c' := by
  simp only [getRangeCost, pureRange]
  by_cases h : (s : Int) < 0 ∨ (s : Int) > M.base.fst.states.length ∨ b < 1 ∨ b > e ∨ e ≥ M.tables.order.length
  · rw [if_pos h, if_pos h]; exact ⟨c, rfl, hc⟩
  · rw [if_neg h, if_neg h]
    obtain ⟨c', k, h1, h2, h3⟩ := ensureCacheIndex_ok hM hmax hf hs hc
    obtain ⟨v, h4, h5⟩ := cached_ok h2 hs h3
    have := h5.unique (hV s hs)
    subst this
    refine ⟨c', ?_, h2⟩
    simp only [h1, ok_bind, if_true, h4]

theorem getFinalCost_ok (hM : Sound M) (hmax : 1 ≤ M.maxCache) {fuel : Nat} (hf : Enough M.base.fst fuel)
    {V : Int → List A.C} (hV : Serves V M) {s : Nat} (hs : s < M.base.fst.states.length)
    (hc : CacheInv M c) :
    ∃ c', getFinalCost A fuel M s c = .ok (cumAt A (V s) 0, c') ∧ CacheInv M c' := by
  have h : ¬ ((s : Int) < 0 ∨ (s : Int) > M.base.fst.states.length) := by omega
  obtain ⟨c', k, h1, h2, h3⟩ := ensureCacheIndex_ok hM hmax hf hs hc
  obtain ⟨v, h4, h5⟩ := cached_ok h2 hs h3
  have := h5.unique (hV s hs)
  subst this
  refine ⟨c', ?_, h2⟩
  simp only [getFinalCost, if_neg h, h1, ok_bind, if_true, h4]

theorem rangeCosts_ok (hM : Sound M) (hmax : 1 ≤ M.maxCache) {fuel : Nat} (hf : Enough M.base.fst fuel)
    {V : Int → List A.C} (hV : Serves V M) {s : Nat} (hs : s < M.base.fst.states.length) :
    ∀ (es : List Int) (b : Int) (c : Cache A.C), CacheInv M c →
    ∃ c', rangeCosts A fuel M s es b c = .ok (pureRanges A V M s es b, c') ∧ CacheInv M c' := by
  intro es
  induction es with
  | nil => intro b c hc; exact ⟨c, rfl, hc⟩
  | cons e es ih =>
    intro b c hc
    obtain ⟨c1, h1, h2⟩ := getRangeCost_ok hM hmax hf hV hs hc b e
    obtain ⟨c2, h3, h4⟩ := ih (e + 1) c1 h2
    exact ⟨c2, by simp only [rangeCosts, h1, ok_bind, h3, pureRanges], h4⟩

/-- The scores before renormalising do not depend on the cache. -/
theorem rawScores_pure (hM : Sound M) (hmax : 1 ≤ M.maxCache) {fuel : Nat} (hf : Enough M.base.fst fuel)
    {V : Int → List A.C} (hV : Serves V M) {s : Nat} (hs : s < M.base.fst.states.length)
    (hc : CacheInv M c) {cur b : Int} {chars : List Str} {ends : List Int} {raw : Raw A.C}
    (h : pureRaw A fuel V M cur s b chars ends = .ok raw) :
    ∃ c', rawScores A fuel M cur s b chars ends c = .ok (raw, c') ∧ CacheInv M c' := by
  cases chars with
  | nil => cases h
  | cons c0 chars =>
    simp only [pureRaw, rawScores] at h ⊢
    by_cases h0 : c0 = [32]
    · rw [if_pos h0] at h ⊢
      simp only [spaceScores]
      obtain ⟨sym, h1, h⟩ := bind_ok.1 h
      obtain ⟨next, h2, h⟩ := bind_ok.1 h
      obtain ⟨final, h3, h⟩ := bind_ok.1 h
      rw [h1, ok_bind, h2, ok_bind, h3, ok_bind]
      by_cases hi : (!A.isInf final) = true
      · rw [if_pos hi] at h ⊢
        cases ends with
        | nil => cases h
        | cons e es =>
          simp only at h ⊢
          obtain ⟨c1, g1, g2⟩ := getRangeCost_ok hM hmax hf hV hs hc b e
          obtain ⟨c2, g3, g4⟩ := rangeCosts_ok hM hmax hf hV hs es (e + 1) c1 g2
          cases h
          exact ⟨c2, by rw [g1, ok_bind, g3]; rfl, g4⟩
      · rw [if_neg hi] at h ⊢
        obtain ⟨c2, g3, g4⟩ := rangeCosts_ok hM hmax hf hV hs ends b c hc
        cases h
        exact ⟨c2, by rw [g3]; rfl, g4⟩
    · rw [if_neg h0] at h ⊢
      simp only [plainScores]
      obtain ⟨c1, g1, g2⟩ := getFinalCost_ok hM hmax hf hV hs hc
      obtain ⟨c2, g3, g4⟩ := rangeCosts_ok hM hmax hf hV hs ends b c1 g2
      rw [g1]
      simp only [ok_bind]
      rw [g3]
      simp only [ok_bind]
      split at h
      · rename_i hh; cases h; rw [if_pos hh]; exact ⟨c2, rfl, g4⟩
      · rename_i hh; cases h; rw [if_neg hh]; exact ⟨c2, rfl, g4⟩

/-- `ExtractLMScores` does not depend on the cache. -/
theorem extract_pure (hM : Sound M) (hmax : 1 ≤ M.maxCache) {fuel : Nat} (hf : Enough M.base.fst fuel)
    {V : Int → List A.C} (hV : Serves V M) (hc : CacheInv M c) {I : Implicit} {s : Int}
    {resp : LMScores A.D} {r : Bool × LMScores A.D} (h : pureExtract A fuel V M I s resp = .ok r)
    (hq : ∀ x, info I (NGram.checkCurrentState M.base s) = .ok (some x) → 1 ≤ x.beginIndex →
      0 ≤ x.modelState ∧ x.modelState < M.base.fst.states.length) :
    ∃ c', extractLMScores A fuel ⟨M, I, c⟩ s resp = .ok (r.1, r.2, c') ∧ CacheInv M c' := by
  simp only [pureExtract, extractLMScores] at h ⊢
  obtain ⟨ce, h1, h⟩ := bind_ok.1 h
  rw [h1, ok_bind]
  cases hce : ce.2 with
  | nil => rw [hce] at h; cases h; exact ⟨c, rfl, hc⟩
  | cons e es =>
    rw [hce] at h
    simp only at h ⊢
    obtain ⟨x, h2, h⟩ := bind_ok.1 h
    rw [h2, ok_bind]
    cases x with
    | none => cases h; exact ⟨c, rfl, hc⟩
    | some x =>
      simp only [scoresAt] at h ⊢
      by_cases hb : x.beginIndex < 1
      · rw [if_pos hb] at h ⊢; cases h; exact ⟨c, rfl, hc⟩
      · rw [if_neg hb] at h ⊢
        obtain ⟨q0, q1⟩ := hq x h2 (by omega)
        obtain ⟨q, hqe⟩ : ∃ q : Nat, x.modelState = q := ⟨x.modelState.toNat, by omega⟩
        rw [hqe] at h ⊢
        have hql : q < M.base.fst.states.length := by omega
        obtain ⟨c1, k, g1, g2, g3⟩ := ensureCacheIndex_ok hM hmax hf hql hc
        obtain ⟨c2, g4, g5, g6⟩ := touch_ok g2 g3
        obtain ⟨raw, h3, h⟩ := bind_ok.1 h
        obtain ⟨norm, h4, h⟩ := bind_ok.1 h
        obtain ⟨c3, g7, g8⟩ := rawScores_pure hM hmax hf hV hql g5 h3
        cases h
        refine ⟨c3, ?_, g8⟩
        rw [g1]
        simp only [ok_bind, if_true]
        rw [g4]
        simp only [ok_bind]
        rw [g7]
        simp only [ok_bind]
        rw [h4]
        rfl

end Mozolm.Word
