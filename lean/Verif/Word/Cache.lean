import Verif.Word.Refine

/-! # The cache of cumulative weights -/

namespace Mozolm.Word

variable {A : Arith}

/-- The cumulative weights of a state, computed without a cache. -/
inductive Vec (f : Fst A.C) (T : Tables) : Nat → List A.C → Prop
  | root {s : Nat} {st : FState A.C} {w : List A.C} {h : List Bool} {v : List A.C} :
      f.states[s]? = some st → (∀ b t, ¬ NGram.IsBackoff f s b t) →
      arcWeights T.position st.arcs (List.replicate T.order.length A.inf)
        (List.replicate T.order.length false) = .ok (w, h) →
      combine A st.final A.one [] w h = .ok v → Vec f T s v
  | back {s t : Nat} {st : FState A.C} {b : A.C} {w : List A.C} {h : List Bool} {u v : List A.C} :
      f.states[s]? = some st → NGram.IsBackoff f s b t → Vec f T t u →
      arcWeights T.position st.arcs (List.replicate T.order.length A.inf)
        (List.replicate T.order.length false) = .ok (w, h) →
      combine A st.final b u w h = .ok v → Vec f T s v

theorem Vec.unique {f : Fst A.C} {T : Tables} {s : Nat} {v v' : List A.C} (h : Vec f T s v)
    (h' : Vec f T s v') : v = v' := by
  induction h generalizing v' with
  | root h1 h2 h3 h4 =>
    cases h' with
    | root g1 g2 g3 g4 =>
      rw [h1] at g1; cases g1
      rw [h3] at g3; cases g3
      rw [h4] at g4; cases g4; rfl
    | back g1 g2 => exact absurd g2 (h2 _ _)
  | back h1 h2 _ h4 h5 ih =>
    cases h' with
    | root g1 g2 => exact absurd h2 (g2 _ _)
    | back g1 g2 g3 g4 g5 =>
      obtain ⟨rfl, rfl⟩ := h2.unique g2
      rw [h1] at g1; cases g1
      rw [h4] at g4; cases g4
      have := ih g3
      subst this
      rw [h5] at g5; cases g5; rfl

/-- What computing the weights needs: labels of arcs have a position. -/
structure Sound (M : Static A.C) : Prop where
  closed : NGram.Closed M.base.fst
  pos : 0 < M.tables.order.length
  labels : ∀ st ∈ M.base.fst.states, ∀ a ∈ st.arcs, 0 < a.label →
    ∃ i : Nat, getI M.tables.position a.label = .ok (i : Int) ∧ i < M.tables.order.length

/-- Invariant of the cache. -/
structure CacheInv (M : Static A.C) (c : Cache A.C) : Prop where
  size : c.index.length = M.base.fst.states.length
  bounded : (c.entries.length : Int) ≤ max 1 M.maxCache
  fromIndex : ∀ (s : Nat) (i : Int), c.index[s]? = some i → i = -1 ∨
    ∃ (k : Nat) (e : Entry A.C), i = k ∧ c.entries[k]? = some e ∧ e.state = s
  fromEntry : ∀ (k : Nat) e, c.entries[k]? = some e → ∃ s : Nat, e.state = s ∧
    c.index[s]? = some (k : Int) ∧ Vec M.base.fst M.tables s e.cum

theorem arcWeights_ok {position : List Int} {n : Nat} : ∀ (arcs : List (Arc A.C)) (w : List A.C)
    (h : List Bool), w.length = n → h.length = n →
    (∀ a ∈ arcs, 0 < a.label → ∃ i : Nat, getI position a.label = .ok (i : Int) ∧ i < n) →
    ∃ w' h', arcWeights position arcs w h = .ok (w', h') ∧ w'.length = n ∧ h'.length = n := by
  intro arcs
  induction arcs with
  | nil => intro w h hw hh _; exact ⟨w, h, rfl, hw, hh⟩
  | cons a arcs ih =>
    intro w h hw hh ha
    by_cases hl : a.label > 0
    · obtain ⟨i, h1, h2⟩ := ha a (by simp) hl
      obtain ⟨w', h', g⟩ := ih (w.set i a.weight) (h.set i true) (by simpa using hw) (by simpa using hh)
        fun x hx => ha x (by simp [hx])
      refine ⟨w', h', ?_, g.2⟩
      simp only [arcWeights, if_pos hl, h1, ok_bind, setI_ok _ (show i < w.length by omega),
        setI_ok _ (show i < h.length by omega), g.1]
    · obtain ⟨w', h', g⟩ := ih w h hw hh fun x hx => ha x (by simp [hx])
      exact ⟨w', h', by simp only [arcWeights, if_neg hl, g.1], g.2⟩

theorem accumulate_ok (bw : A.C) : ∀ (ws : List A.C) (prev : A.C) (hs : List Bool) (bs : List A.C),
    hs.length = ws.length → (bs.length = ws.length + 1 ∨ ∀ h ∈ hs, h = true) →
    ∃ v, accumulate A bw prev ws hs bs = .ok v ∧ v.length = ws.length := by
  intro ws
  induction ws with
  | nil => intro prev hs bs _ _; exact ⟨[], rfl, rfl⟩
  | cons w ws ih =>
    intro prev hs bs hl hb
    cases hs with
    | nil => cases hl
    | cons h hs =>
      simp only [List.length_cons, Nat.add_right_cancel_iff] at hl hb
      cases h with
      | true =>
        obtain ⟨v, h1, h2⟩ := ih (A.nls w prev) hs bs.tail hl (by
          rcases hb with hb | hb
          · left; simp [hb]
          · right; intro h hh; exact hb h (by simp [hh]))
        exact ⟨A.nls w prev :: v, by simp only [accumulate, h1, ok_bind], by simp [h2]⟩
      | false =>
        rcases hb with hb | hb
        · match bs, hb with
          | b :: b' :: bs, hb =>
            obtain ⟨v, h1, h2⟩ := ih
              (A.nls (A.times bw (safeNegLogDiff A b' b)) prev) hs (b' :: bs) hl (by left; simpa using hb)
            exact ⟨A.nls (A.times bw (safeNegLogDiff A b' b)) prev :: v, by simp only [accumulate, h1, ok_bind],
              by simp [h2]⟩
        · exact absurd (hb false (by simp)) (by simp)

theorem combine_ok {n : Nat} (hn : 0 < n) (final bw : A.C) (u w : List A.C) (h : List Bool) (hw : w.length = n)
    (hh : h.length = n) (hu : u = [] ∨ u.length = n) :
    ∃ v, combine A final bw u w h = .ok v ∧ v.length = n := by
  cases w with
  | nil => simp at hw; omega
  | cons w0 ws =>
    simp only [combine]
    generalize (if (!A.isInf final) = true then final else _ : A.C) = w0'
    simp only [List.length_cons] at hw
    obtain ⟨v, h1, h2⟩ := accumulate_ok bw ws w0'
      ((if u.isEmpty then List.replicate (w0 :: ws).length true else h).tail) u (by
        split <;> simp <;> omega) (by
        rcases hu with rfl | hu
        · right
          intro x hx
          simp only [List.isEmpty_nil, if_true, List.length_cons, List.tail_replicate] at hx
          exact List.eq_of_mem_replicate hx
        · left; omega)
    rw [h1]
    exact ⟨w0' :: v, rfl, by simp [h2, hw]⟩

theorem combine_length {n : Nat} {final bw : A.C} {u w : List A.C} {h : List Bool} {v : List A.C}
    (hn : 0 < n) (hw : w.length = n) (hh : h.length = n) (hu : u = [] ∨ u.length = n)
    (hc : combine A final bw u w h = .ok v) : v.length = n := by
  obtain ⟨v', h1, h2⟩ := combine_ok hn final bw u w h hw hh hu
  rw [h1] at hc; cases hc; exact h2

theorem Vec.length {M : Static A.C} (hM : Sound M) {s : Nat} {v : List A.C}
    (h : Vec M.base.fst M.tables s v) : v.length = M.tables.order.length := by
  induction h with
  | root h1 _ h3 h4 =>
    obtain ⟨w', h', g1, g2, g3⟩ := arcWeights_ok (position := M.tables.position) (n := M.tables.order.length)
      _ (List.replicate M.tables.order.length A.inf) (List.replicate M.tables.order.length false)
      (by simp) (by simp) (hM.labels _ (List.mem_of_getElem? h1))
    rw [h3] at g1; cases g1
    exact combine_length hM.pos g2 g3 (.inl rfl) h4
  | back h1 _ _ h4 h5 ih =>
    obtain ⟨w', h', g1, g2, g3⟩ := arcWeights_ok (position := M.tables.position) (n := M.tables.order.length)
      _ (List.replicate M.tables.order.length A.inf) (List.replicate M.tables.order.length false)
      (by simp) (by simp) (hM.labels _ (List.mem_of_getElem? h1))
    rw [h4] at g1; cases g1
    exact combine_length hM.pos g2 g3 (.inr ih) h5

variable {M : Static A.C} {c : Cache A.C}

theorem CacheInv.index_cases (hc : CacheInv M c) {s : Nat} (hs : s < M.base.fst.states.length) :
    (getI c.index s = .ok (-1) ∧ c.index[s]? = some (-1)) ∨
    ∃ (k : Nat) (e : Entry A.C), getI c.index s = .ok (k : Int) ∧ c.index[s]? = some (k : Int) ∧
      getI c.entries (k : Int) = .ok e ∧ c.entries[k]? = some e ∧ e.state = s ∧
      Vec M.base.fst M.tables s e.cum := by
  obtain ⟨i, hi⟩ := exists_getElem?_of_lt (l := c.index) (i := s) (by rw [hc.size]; exact hs)
  rcases hc.fromIndex s i hi with rfl | ⟨k, e, rfl, h2, h3⟩
  · exact .inl ⟨getI_ok hi, hi⟩
  · obtain ⟨s', g1, _, g3⟩ := hc.fromEntry k e h2
    have : s' = s := by omega
    subst this
    exact .inr ⟨k, e, getI_ok hi, hi, getI_ok h2, h2, h3, g3⟩

theorem oldestFrom_lt {C : Type} : ∀ (es : List (Entry C)) (i best : Nat) (t : Int), best < i →
    oldestFrom es i best t < i + es.length := by
  intro es
  induction es with
  | nil => intro i best t h; simpa [oldestFrom] using h
  | cons e es ih =>
    intro i best t h
    simp only [oldestFrom, List.length_cons]
    split
    · have := ih (i + 1) i e.lastAccessed (by omega); omega
    · have := ih (i + 1) best t (by omega); omega

/-- Putting a vector in the cache. -/
theorem getNewCacheIndex_ok (hmax : 1 ≤ M.maxCache) (hc : CacheInv M c) {s : Nat}
    (hs : s < M.base.fst.states.length) (hnew : c.index[s]? = some (-1)) {v : List A.C}
    (hv : Vec M.base.fst M.tables s v) :
    ∃ (c' : Cache A.C) (k : Nat), getNewCacheIndex M.maxCache s v c = .ok (true, c') ∧ CacheInv M c' ∧
      c'.index[s]? = some (k : Int) ∧
      (∀ t : Nat, t ≠ s → c.index[t]? = some (-1) → c'.index[t]? = some (-1)) := by
  have hsl : s < c.index.length := by rw [hc.size]; exact hs
  simp only [getNewCacheIndex]
  by_cases hroom : (c.entries.length : Int) < M.maxCache
  · rw [if_pos hroom, setI_ok _ hsl]
    refine ⟨_, c.entries.length, rfl, ⟨by simp [hc.size], by simp; omega, ?_, ?_⟩, by simp [hsl], ?_⟩
    · intro t i hi
      by_cases h : t = s
      · subst h
        simp only [List.getElem?_set_self hsl] at hi
        have := Option.some.inj hi
        exact .inr ⟨c.entries.length, ⟨t, c.accessed, v⟩, this.symm, by simp, rfl⟩
      · rw [List.getElem?_set_ne (by omega)] at hi
        rcases hc.fromIndex t i hi with h | ⟨k, e, h1, h2, h3⟩
        · exact .inl h
        · exact .inr ⟨k, e, h1, by
            simp only
            rw [List.getElem?_append_left (lt_of_getElem?_eq_some h2)]; exact h2, h3⟩
    · intro k e he
      simp only at he ⊢
      by_cases h : k < c.entries.length
      · rw [List.getElem?_append_left h] at he
        obtain ⟨t, g1, g2, g3⟩ := hc.fromEntry k e he
        refine ⟨t, g1, ?_, g3⟩
        have : t ≠ s := by
          rintro rfl
          rw [hnew] at g2
          have := Option.some.inj g2
          omega
        rw [List.getElem?_set_ne (by omega)]
        exact g2
      · have hl := lt_of_getElem?_eq_some he
        simp at hl
        have : k = c.entries.length := by omega
        subst this
        simp at he
        subst he
        exact ⟨s, rfl, by simp [hsl], hv⟩
    · intro t ht hi
      rw [List.getElem?_set_ne (by omega)]
      exact hi
  · rw [if_neg hroom]
    cases hE : c.entries with
    | nil => rw [hE] at hroom; simp at hroom; omega
    | cons e0 es =>
      simp only
      generalize hk : oldestFrom es 1 0 e0.lastAccessed = k
      have hkl : k < (e0 :: es).length := by
        have := oldestFrom_lt es 1 0 e0.lastAccessed (by omega)
        simp only [List.length_cons]; omega
      obtain ⟨old, hold⟩ := exists_getElem?_of_lt hkl
      rw [getI_ok hold, ok_bind]
      obtain ⟨t0, ht0, hti, _⟩ := hc.fromEntry k old (by rw [hE]; exact hold)
      rw [ht0, getI_ok hti, ok_bind, if_neg (by simp)]
      have ht0l := lt_of_getElem?_eq_some hti
      rw [setI_ok _ ht0l, ok_bind, setI_ok _ (by simpa using hsl), ok_bind]
      have hne : t0 ≠ s := by
        rintro rfl
        rw [hnew] at hti
        have := Option.some.inj hti
        omega
      refine ⟨_, k, rfl, ⟨by simp [hc.size], ?_, ?_, ?_⟩, ?_, ?_⟩
      · have := hc.bounded
        rw [hE] at this
        simpa using this
      · intro t i hi
        simp only at hi ⊢
        by_cases h : t = s
        · subst h
          rw [List.getElem?_set_self (by simpa using hsl)] at hi
          exact .inr ⟨k, _, (Option.some.inj hi).symm, by rw [List.getElem?_set_self hkl], rfl⟩
        · rw [List.getElem?_set_ne (by omega)] at hi
          by_cases h' : t = t0
          · subst h'
            rw [List.getElem?_set_self ht0l] at hi
            exact .inl (Option.some.inj hi).symm
          · rw [List.getElem?_set_ne (by omega)] at hi
            rcases hc.fromIndex t i hi with g | ⟨j, e, g1, g2, g3⟩
            · exact .inl g
            · refine .inr ⟨j, e, g1, ?_, g3⟩
              have hjk : k ≠ j := by
                rintro rfl
                rw [hE, hold] at g2
                cases g2
                rw [ht0] at g3
                omega
              rw [List.getElem?_set_ne hjk, ← hE]
              exact g2
      · intro j e he
        simp only at he ⊢
        by_cases h : j = k
        · subst h
          rw [List.getElem?_set_self hkl] at he
          cases he
          exact ⟨s, rfl, by rw [List.getElem?_set_self (by simpa using hsl)], hv⟩
        · rw [List.getElem?_set_ne (by omega), ← hE] at he
          obtain ⟨t, g1, g2, g3⟩ := hc.fromEntry j e he
          refine ⟨t, g1, ?_, g3⟩
          have h1 : t ≠ s := by
            rintro rfl
            rw [hnew] at g2
            have := Option.some.inj g2
            omega
          have h2 : t ≠ t0 := by
            rintro rfl
            rw [hti] at g2
            have := Option.some.inj g2
            omega
          rw [List.getElem?_set_ne (by omega), List.getElem?_set_ne (by omega)]
          exact g2
      · rw [List.getElem?_set_self (by simpa using hsl)]
      · intro t ht hi
        rw [List.getElem?_set_ne (by omega)]
        by_cases h : t = t0
        · subst h; rw [List.getElem?_set_self ht0l]
        · rw [List.getElem?_set_ne (by omega)]; exact hi

/-- Marking an entry as used. -/
theorem touch_ok (hc : CacheInv M c) {s k : Nat} (hs : c.index[s]? = some (k : Int)) :
    ∃ c', touch s c = .ok c' ∧ CacheInv M c' ∧ c'.index = c.index := by
  rcases hc.fromIndex s _ hs with h | ⟨k', e, h1, h2, h3⟩
  · omega
  · have : k' = k := by omega
    subst this
    have hl := lt_of_getElem?_eq_some h2
    simp only [touch, getI_ok hs, ok_bind, getI_ok h2, setI_ok _ hl]
    refine ⟨_, rfl, ⟨hc.size, by simpa using hc.bounded, ?_, ?_⟩, rfl⟩
    · intro t i hi
      rcases hc.fromIndex t i hi with g | ⟨j, x, g1, g2, g3⟩
      · exact .inl g
      · by_cases h : k' = j
        · subst h
          rw [h2] at g2; cases g2
          exact .inr ⟨k', { e with lastAccessed := c.accessed }, g1, by
            simp only; rw [List.getElem?_set_self hl], g3⟩
        · exact .inr ⟨j, x, g1, by simp only; rw [List.getElem?_set_ne h]; exact g2, g3⟩
    · intro j x hx
      simp only at hx
      by_cases h : k' = j
      · subst h
        rw [List.getElem?_set_self hl] at hx
        cases hx
        exact hc.fromEntry k' e h2
      · rw [List.getElem?_set_ne h] at hx
        exact hc.fromEntry j x hx

theorem fillWeights_ok (hM : Sound M) (hmax : 1 ≤ M.maxCache) {rank : Nat → Nat}
    (hr : ∀ s w t, NGram.IsBackoff M.base.fst s w t → rank t < rank s) :
    ∀ (n s : Nat) (c : Cache A.C), rank s < n → s < M.base.fst.states.length → CacheInv M c →
    ∃ v c', fillWeights A M n s c = .ok (v, c') ∧ Vec M.base.fst M.tables s v ∧ CacheInv M c' ∧
      (∀ t, rank s ≤ rank t → c.index[t]? = some (-1) → c'.index[t]? = some (-1)) ∧
      (∀ k : Nat, c.index[s]? = some (k : Int) → c' = c) := by
  intro n
  induction n with
  | zero => intro s c h; omega
  | succ n ih =>
    intro s c hrank hs hc
    rcases hc.index_cases hs with ⟨h1, h2⟩ | ⟨k, e, h1, h2, h3, h4, h5, h6⟩
    · simp only [fillWeights, h1, ok_bind, if_neg (show ¬ ((-1 : Int) ≥ 0) by omega), NGram.state?_nat]
      obtain ⟨st, hst⟩ := exists_getElem?_of_lt hs
      rw [hst]
      simp only
      obtain ⟨w, h, a1, a2, a3⟩ := arcWeights_ok (position := M.tables.position)
        (n := M.tables.order.length) st.arcs (List.replicate M.tables.order.length A.inf)
        (List.replicate M.tables.order.length false) (by simp) (by simp)
        (hM.labels _ (List.mem_of_getElem? hst))
      rw [a1, ok_bind]
      have nok : ∀ k : Nat, c.index[s]? = some (k : Int) → False := by
        intro k hk
        rw [h2] at hk
        have := Option.some.inj hk
        omega
      rcases NGram.getBackoff_spec M.base.fst hs with ⟨b, t, hb, e⟩ | ⟨hb, e⟩
      · rw [e, ok_bind]
        have htr := hr s b t hb
        have ht := hb.lt hM.closed
        have hne : ¬ ((t : Int) = -1) := by omega
        simp only [backoffVector, if_neg hne, ensureWith]
        -- the backoff state in the cache
        have ens : ∃ (c1 : Cache A.C) (k : Nat), (do
            let i ← getI c.index t
            if i ≥ 0 then .ok (true, c)
            else do
              let r ← fillWeights A M n t c
              getNewCacheIndex M.maxCache t r.1 r.2 : Except Fault (Bool × Cache A.C)) = .ok (true, c1) ∧
            CacheInv M c1 ∧ c1.index[t]? = some (k : Int) ∧
            (∀ x, rank s ≤ rank x → c.index[x]? = some (-1) → c1.index[x]? = some (-1)) := by
          rcases hc.index_cases ht with ⟨g1, g2⟩ | ⟨k, e, g1, g2, g3, g4, g5, g6⟩
          · rw [g1]
            simp only [ok_bind, if_neg (show ¬ ((-1 : Int) ≥ 0) by omega)]
            obtain ⟨v, c', b1, b2, b3, b4, _⟩ := ih t c (by omega) ht hc
            obtain ⟨c1, k, d1, d2, d3, d4⟩ := getNewCacheIndex_ok hmax b3 ht (b4 t (Nat.le_refl _) g2) b2
            refine ⟨c1, k, by rw [b1, ok_bind, d1], d2, d3, ?_⟩
            intro x hx hxi
            exact d4 x (by rintro rfl; omega) (b4 x (by omega) hxi)
          · rw [g1]
            simp only [ok_bind, if_pos (show ((k : Int) ≥ 0) by omega)]
            exact ⟨c, k, rfl, hc, g2, fun _ _ h => h⟩
        obtain ⟨c1, k, d1, d2, d3, d4⟩ := ens
        rw [d1]
        simp only [ok_bind, if_true]
        obtain ⟨u, c2, b1, b2, b3, b4, b5⟩ := ih t c1 (by omega) ht d2
        have := b5 k d3
        subst this
        rw [b1]
        simp only [ok_bind]
        obtain ⟨c3, e1, e2, e3⟩ := touch_ok b3 d3
        rw [e1]
        simp only [ok_bind]
        have hul : u.length = M.tables.order.length := b2.length hM
        obtain ⟨v, f1, f2⟩ := combine_ok hM.pos st.final b u w h a2 a3 (.inr hul)
        refine ⟨v, c3, by rw [f1]; rfl, .back hst hb b2 a1 f1, e2, ?_, fun k hk => (nok k hk).elim⟩
        intro x hx hxi
        rw [e3]
        exact d4 x hx hxi
      · rw [e, ok_bind]
        simp only [backoffVector, if_true, ok_bind]
        obtain ⟨v, f1, f2⟩ := combine_ok hM.pos st.final A.one [] w h a2 a3 (.inl rfl)
        exact ⟨v, c, by rw [f1]; rfl, .root hst hb a1 f1, hc, fun _ _ h => h, fun k hk => (nok k hk).elim⟩
    · refine ⟨e.cum, c, ?_, h6, hc, fun _ _ h => h, fun _ _ => rfl⟩
      simp only [fillWeights, h1, ok_bind, if_pos (show ((k : Int) ≥ 0) by omega), h3]

/-- `EnsureCacheIndex` succeeds at every state. -/
theorem ensureCacheIndex_ok (hM : Sound M) (hmax : 1 ≤ M.maxCache) {fuel : Nat}
    (hf : Enough M.base.fst fuel) {s : Nat} (hs : s < M.base.fst.states.length) (hc : CacheInv M c) :
    ∃ (c' : Cache A.C) (k : Nat), ensureCacheIndex A M fuel s c = .ok (true, c') ∧ CacheInv M c' ∧
      c'.index[s]? = some (k : Int) := by
  obtain ⟨rank, hr, hfu⟩ := hf
  simp only [ensureCacheIndex, ensureWith]
  rcases hc.index_cases hs with ⟨g1, g2⟩ | ⟨k, e, g1, g2, g3, g4, g5, g6⟩
  · rw [g1]
    simp only [ok_bind, if_neg (show ¬ ((-1 : Int) ≥ 0) by omega)]
    obtain ⟨v, c', b1, b2, b3, b4, _⟩ := fillWeights_ok hM hmax hr fuel s c
      (by have := hfu s hs; omega) hs hc
    obtain ⟨c1, k, d1, d2, d3, _⟩ := getNewCacheIndex_ok hmax b3 hs (b4 s (Nat.le_refl _) g2) b2
    exact ⟨c1, k, by rw [b1, ok_bind, d1], d2, d3⟩
  · rw [g1]
    simp only [ok_bind, if_pos (show ((k : Int) ≥ 0) by omega)]
    exact ⟨c, k, rfl, hc, g2⟩

/-- What is served for a state in the cache. -/
theorem cached_ok (hc : CacheInv M c) {s k : Nat} (hs : s < M.base.fst.states.length)
    (h : c.index[s]? = some (k : Int)) :
    ∃ v, cached c s = .ok v ∧ Vec M.base.fst M.tables s v := by
  rcases hc.index_cases hs with ⟨g1, g2⟩ | ⟨k', e, g1, g2, g3, g4, g5, g6⟩
  · rw [h] at g2; have := Option.some.inj g2; omega
  · exact ⟨e.cum, by simp only [cached, g1, ok_bind, g3], g6⟩

/-- Every state has cumulative weights. -/
theorem Vec.exists (hM : Sound M) (ha : NGram.Acyclic M.base.fst) {s : Nat}
    (hs : s < M.base.fst.states.length) : ∃ v, Vec M.base.fst M.tables s v := by
  obtain ⟨rank, hr⟩ := ha
  induction hn : rank s using Nat.strongRecOn generalizing s with
  | _ n ih =>
    obtain ⟨st, hst⟩ := exists_getElem?_of_lt hs
    obtain ⟨w, h, a1, a2, a3⟩ := arcWeights_ok (position := M.tables.position)
      (n := M.tables.order.length) st.arcs (List.replicate M.tables.order.length A.inf)
      (List.replicate M.tables.order.length false) (by simp) (by simp)
      (hM.labels _ (List.mem_of_getElem? hst))
    rcases NGram.getBackoff_spec M.base.fst hs with ⟨b, t, hb, e⟩ | ⟨hb, e⟩
    · obtain ⟨u, hu⟩ := ih (rank t) (by rw [← hn]; exact hr _ _ _ hb) (hb.lt hM.closed) rfl
      obtain ⟨v, f1, _⟩ := combine_ok hM.pos st.final b u w h a2 a3 (.inr (hu.length hM))
      exact ⟨v, .back hst hb hu a1 f1⟩
    · obtain ⟨v, f1, _⟩ := combine_ok hM.pos st.final A.one [] w h a2 a3 (.inl rfl)
      exact ⟨v, .root hst hb a1 f1⟩

theorem CacheInv.empty (M : Static A.C) :
    CacheInv M { accessed := 0, index := List.replicate M.base.fst.states.length (-1), entries := [] } := by
  refine ⟨by simp, by simp; omega, ?_, by simp⟩
  intro s i hi
  simp only [List.getElem?_replicate] at hi
  split at hi
  · exact .inl (Option.some.inj hi).symm
  · cases hi

end Mozolm.Word
