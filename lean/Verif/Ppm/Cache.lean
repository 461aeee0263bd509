import Verif.Ppm.Pure

/-! # The cache invariant of the PPM model -/

namespace Mozolm.Ppm
variable {A : Arith}

namespace PM
variable {α β : Type}

theorem bind_some {x : PM A α} {f : α → PM A β} {m m' : Model A} {a : α}
    (h : x m = .ok (some a, m')) : (x >>= f) m = f a m' := by
  show (match x m with
    | .error e => .error e
    | .ok (none, m') => .ok (none, m')
    | .ok (some a, m') => f a m') = f a m'
  rw [h]

theorem bind_none {x : PM A α} {f : α → PM A β} {m m' : Model A}
    (h : x m = .ok (none, m')) : (x >>= f) m = .ok (none, m') := by
  have : (x >>= f) m = match x m with
    | .error e => Except.error e
    | .ok (none, m') => Except.ok (none, m')
    | .ok (some a, m') => f a m' := rfl
  rw [this, h]

theorem reads_bind {g : Model A → Res α} {f : α → PM A β} {m : Model A} {a : α}
    (h : g m = pure a) : (PM.reads g >>= f) m = f a m := by
  apply bind_some
  unfold PM.reads
  rw [h]; rfl

theorem reads_eq {g : Model A → Res α} {m : Model A} {a : α}
    (h : g m = pure a) : PM.reads g m = .ok (some a, m) := by
  unfold PM.reads
  rw [h]; rfl

@[simp] theorem modify_bind {g : Model A → Model A} {f : Unit → PM A β} {m : Model A} :
    (PM.modify g >>= f) m = f () (g m) := rfl

@[simp] theorem pure_bind {a : α} {f : α → PM A β} : ((pure a : PM A α) >>= f) = f a := rfl

@[simp] theorem pure_apply {a : α} {m : Model A} : (pure a : PM A α) m = .ok (some a, m) := rfl

end PM

/-- the cache changed at most -/
structure Same (m m' : Model A) : Prop where
  core : m'.core = m.core
  alpha : m'.alpha = m.alpha
  beta : m'.beta = m.beta
  static : m'.static = m.static
  symbols : m'.symbols = m.symbols
  maxCache : m'.maxCache = m.maxCache

theorem Same.refl (m : Model A) : Same m m := ⟨rfl, rfl, rfl, rfl, rfl, rfl⟩

theorem Same.trans {m m' m'' : Model A} (h : Same m m') (h' : Same m' m'') : Same m m'' :=
  ⟨h'.core.trans h.core, h'.alpha.trans h.alpha, h'.beta.trans h.beta, h'.static.trans h.static,
    h'.symbols.trans h.symbols, h'.maxCache.trans h.maxCache⟩

/-- Consistency of `cache_index_` and `state_cache_`. -/
structure Rep (m : Model A) : Prop where
  len : m.index.length = m.core.fst.states.length
  entry : ∀ (i : Nat) e, m.cache[i]? = some e → ∃ s : Nat, e.state = (s : Int) ∧ m.index[s]? = some (i : Int)
  idx : ∀ (s : Nat) i, m.index[s]? = some i →
    i = -1 ∨ ∃ (k : Nat) (e : Entry A.C), i = (k : Int) ∧ m.cache[k]? = some e ∧ e.state = (s : Int)
  size : (m.cache.length : Int) ≤ m.maxCache
  max : 2 ≤ m.maxCache

theorem Rep.index_some {m : Model A} (h : Rep m) {s : Nat} (hs : s < m.core.fst.states.length) :
    ∃ i, m.index[s]? = some i ∧ indexOf m (s : Int) = pure i := by
  obtain ⟨i, hi⟩ := exists_getElem?_of_lt (l := m.index) (i := s) (by rw [h.len]; exact hs)
  refine ⟨i, hi, ?_⟩
  unfold indexOf
  rw [if_neg (by omega), toNat_coe, hi]; rfl

theorem entryAt_nat {m : Model A} {k : Nat} {e : Entry A.C} (h : m.cache[k]? = some e) :
    entryAt m (k : Int) = pure e := by
  unfold entryAt
  rw [if_neg (by omega), toNat_coe, h]; rfl

theorem Rep.unique {m : Model A} (h : Rep m) {e e' : Entry A.C} (he : e ∈ m.cache) (he' : e' ∈ m.cache)
    (hs : e.state = e'.state) : e = e' := by
  obtain ⟨i, hi⟩ := List.getElem?_of_mem he
  obtain ⟨j, hj⟩ := List.getElem?_of_mem he'
  obtain ⟨s, h1, h2⟩ := h.entry i e hi
  obtain ⟨s', h1', h2'⟩ := h.entry j e' hj
  have : s = s' := by omega
  subst this
  rw [h2] at h2'
  have : i = j := by injection h2' with h2'; omega
  subst this
  rw [hi] at hj; injection hj

theorem Rep.of_same {m m' : Model A} (h : Rep m) (hc : m'.core = m.core) (hi : m'.index = m.index)
    (hca : m'.cache = m.cache) (hm : m'.maxCache = m.maxCache) : Rep m' := by
  constructor
  · rw [hi, hc]; exact h.len
  · rw [hi, hca]; exact h.entry
  · rw [hi, hca]; exact h.idx
  · rw [hca, hm]; exact h.size
  · rw [hm]; exact h.max

theorem mem_set_iff {α : Type} {l : List α} {k : Nat} {old new : α} (hk : l[k]? = some old) {x : α} :
    x ∈ l.set k new ↔ x = new ∨ ∃ j, j ≠ k ∧ l[j]? = some x := by
  constructor
  · intro h
    obtain ⟨j, hj⟩ := List.getElem?_of_mem h
    by_cases hjk : k = j
    · subst hjk
      rw [List.getElem?_set_self (lt_of_getElem?_eq_some hk)] at hj
      injection hj with hj; exact .inl hj.symm
    · rw [List.getElem?_set_ne hjk] at hj
      exact .inr ⟨j, fun e => hjk e.symm, hj⟩
  · rintro (rfl | ⟨j, hjk, hj⟩)
    · exact List.mem_of_getElem? (i := k) (List.getElem?_set_self (lt_of_getElem?_eq_some hk))
    · exact List.mem_of_getElem? (i := j) (by rw [List.getElem?_set_ne (fun e => hjk e.symm)]; exact hj)

/-- Replacing an entry by one for the same state. -/
theorem Rep.set {m : Model A} (h : Rep m) {k : Nat} {old new : Entry A.C} (hk : m.cache[k]? = some old)
    (hs : new.state = old.state) (c : Int) :
    Rep { m with cache := m.cache.set k new, counter := c } ∧
    ∀ x, x ∈ m.cache.set k new ↔ x = new ∨ (x ∈ m.cache ∧ x.state ≠ new.state) := by
  have hkl := lt_of_getElem?_eq_some hk
  refine ⟨⟨h.len, ?_, ?_, by simpa using h.size, h.max⟩, ?_⟩
  · intro i e he
    simp only at he ⊢
    by_cases hik : k = i
    · subst hik
      rw [List.getElem?_set_self hkl] at he
      injection he with he
      subst he
      rw [hs]; exact h.entry k old hk
    · rw [List.getElem?_set_ne hik] at he
      exact h.entry i e he
  · intro s i hi
    simp only at hi ⊢
    rcases h.idx s i hi with h1 | ⟨j, e, h1, h2, h3⟩
    · exact .inl h1
    · right
      by_cases hjk : k = j
      · subst hjk
        rw [hk] at h2; injection h2 with h2
        exact ⟨k, new, h1, List.getElem?_set_self hkl, by rw [hs, h2]; exact h3⟩
      · exact ⟨j, e, h1, by rw [List.getElem?_set_ne hjk]; exact h2, h3⟩
  · intro x
    rw [mem_set_iff hk]
    constructor
    · rintro (rfl | ⟨j, hjk, hj⟩)
      · exact .inl rfl
      · refine .inr ⟨List.mem_of_getElem? hj, fun e => hjk ?_⟩
        obtain ⟨s, h1, h2⟩ := h.entry j x hj
        obtain ⟨s', h1', h2'⟩ := h.entry k old hk
        have : s = s' := by rw [hs, h1', h1] at e; omega
        subst this
        rw [h2] at h2'; injection h2' with h2'; omega
    · rintro (rfl | ⟨hx, hne⟩)
      · exact .inl rfl
      · obtain ⟨j, hj⟩ := List.getElem?_of_mem hx
        refine .inr ⟨j, ?_, hj⟩
        rintro rfl
        rw [hk] at hj; injection hj with hj; subst hj
        exact hne hs.symm

/-! ## Eviction -/

theorem oldestFrom_spec {C : Type} (l : List (Entry C)) :
    ∀ (es : List (Entry C)) (i best : Nat) (e0 : Entry C), best < i → l[best]? = some e0 →
      (∀ j e, j < i → l[j]? = some e → e0.accessed ≤ e.accessed) → l.drop i = es →
      ∃ e, l[oldestFrom i best e0.accessed es]? = some e ∧ ∀ e' ∈ l, e.accessed ≤ e'.accessed := by
  intro es
  induction es with
  | nil =>
    intro i best e0 hb he hmin hd
    refine ⟨e0, he, ?_⟩
    intro e' he'
    obtain ⟨j, hj⟩ := List.getElem?_of_mem he'
    have : l.length ≤ i := by simpa [List.drop_eq_nil_iff] using hd
    exact hmin j e' (by have := lt_of_getElem?_eq_some hj; omega) hj
  | cons e es ih =>
    intro i best e0 hb he hmin hd
    have hi : l[i]? = some e := by
      have : (l.drop i)[0]? = some e := by rw [hd]; rfl
      simpa using this
    have hd' : l.drop (i + 1) = es := by
      rw [← List.drop_drop, hd]; rfl
    unfold oldestFrom
    by_cases hlt : e.accessed < e0.accessed
    · rw [if_pos hlt]
      refine ih (i + 1) i e (by omega) hi ?_ hd'
      intro j x hj hx
      by_cases hji : j = i
      · subst hji; rw [hi] at hx; injection hx with hx; subst hx; exact Int.le_refl _
      · have := hmin j x (by omega) hx; omega
    · rw [if_neg hlt]
      refine ih (i + 1) best e0 (by omega) he ?_ hd'
      intro j x hj hx
      by_cases hji : j = i
      · subst hji; rw [hi] at hx; injection hx with hx; subst hx; omega
      · exact hmin j x (by omega) hx

theorem findOldest_spec {C : Type} {l : List (Entry C)} (h : l ≠ []) :
    ∃ i e, findOldest l = pure i ∧ l[i]? = some e ∧ ∀ e' ∈ l, e.accessed ≤ e'.accessed := by
  cases l with
  | nil => exact absurd rfl h
  | cons e es =>
    obtain ⟨x, h1, h2⟩ := oldestFrom_spec (e :: es) es 1 0 e (by omega) rfl
      (by intro j x hj hx
          have : j = 0 := by omega
          subst this
          simp only [List.getElem?_cons_zero, Option.some.injEq] at hx
          subst hx; exact Int.le_refl _) rfl
    exact ⟨_, x, rfl, h1, h2⟩

/-- `GetNewCacheIndex` always succeeds on a consistent cache; it drops at most the entry that was not
accessed for longest. -/
theorem getNewCacheIndex_spec {m : Model A} (h : Rep m) {s : Nat} (hs : m.index[s]? = some (-1)) :
    ∃ (m' : Model A) (k : Nat), getNewCacheIndex (A := A) (s : Int) m = .ok (some (), m') ∧ Same m m' ∧ m'.counter = m.counter ∧
      Rep m' ∧ m'.index[s]? = some (k : Int) ∧ m'.cache[k]? = some (Entry.new A s) ∧
      (∀ e ∈ m'.cache, e = Entry.new A s ∨ (e ∈ m.cache ∧ e.state ≠ (s : Int))) ∧
      (∀ e ∈ m.cache, e ∈ m'.cache ∨ ∀ e' ∈ m.cache, e.accessed ≤ e'.accessed) := by
  have hsl := lt_of_getElem?_eq_some hs
  have hns : ∀ e ∈ m.cache, e.state ≠ (s : Int) := by
    intro e he heq
    obtain ⟨i, hi⟩ := List.getElem?_of_mem he
    obtain ⟨t, h1, h2⟩ := h.entry i e hi
    have : t = s := by omega
    subst this
    rw [hs] at h2; injection h2 with h2; omega
  unfold getNewCacheIndex
  by_cases hfull : (m.cache.length : Int) < m.maxCache
  · rw [if_pos hfull]
    refine ⟨_, m.cache.length, rfl, ⟨rfl, rfl, rfl, rfl, rfl, rfl⟩, rfl, ?_, ?_, ?_, ?_, ?_⟩
    · refine ⟨by simpa using h.len, ?_, ?_, by simp; omega, h.max⟩
      · intro i e he
        simp only at he ⊢
        by_cases hi : i = m.cache.length
        · subst hi
          rw [List.getElem?_concat_length] at he
          injection he with he; subst he
          exact ⟨s, rfl, by rw [toNat_coe, List.getElem?_set_self hsl]⟩
        · have hlt : i < m.cache.length := by
            have := lt_of_getElem?_eq_some he; simp at this; omega
          rw [List.getElem?_append_left hlt] at he
          obtain ⟨t, h1, h2⟩ := h.entry i e he
          refine ⟨t, h1, ?_⟩
          have : s ≠ t := by
            rintro rfl; exact hns e (List.mem_of_getElem? he) h1
          rw [toNat_coe, List.getElem?_set_ne this]; exact h2
      · intro t i hi
        simp only [toNat_coe] at hi ⊢
        by_cases hts : s = t
        · subst hts
          rw [List.getElem?_set_self hsl] at hi
          injection hi with hi
          exact .inr ⟨m.cache.length, Entry.new A s, hi.symm, List.getElem?_concat_length, rfl⟩
        · rw [List.getElem?_set_ne hts] at hi
          rcases h.idx t i hi with h1 | ⟨k, e, h1, h2, h3⟩
          · exact .inl h1
          · exact .inr ⟨k, e, h1, by
              rw [List.getElem?_append_left (lt_of_getElem?_eq_some h2)]; exact h2, h3⟩
    · simp only [toNat_coe]; rw [List.getElem?_set_self hsl]
    · simp only; exact List.getElem?_concat_length
    · intro e he
      simp only [List.mem_append, List.mem_singleton] at he
      rcases he with he | he
      · exact .inr ⟨he, hns e he⟩
      · exact .inl he
    · intro e he; left; simp [he]
  · rw [if_neg hfull]
    have hne : m.cache ≠ [] := by
      intro e; rw [e] at hfull; have := h.max; simp at hfull; omega
    obtain ⟨i, old, hf, hi, hmin⟩ := findOldest_spec hne
    obtain ⟨t, ht1, ht2⟩ := h.entry i old hi
    rw [hf]
    have htl := lt_of_getElem?_eq_some ht2
    have hidx : indexOf m old.state = pure (i : Int) := by
      unfold indexOf
      rw [ht1, if_neg (by omega), toNat_coe, ht2]; rfl
    have hst : s ≠ t := by
      rintro rfl; exact hns old (List.mem_of_getElem? hi) ht1
    have hil := lt_of_getElem?_eq_some hi
    simp only [Pure.pure]
    rw [hi]
    simp only
    rw [hidx]
    simp only [Pure.pure, ne_eq, not_true_eq_false, if_false]
    rw [ht1, toNat_coe, toNat_coe]
    have hsl' : s < (m.index.set t (-1)).length := by simpa using hsl
    refine ⟨_, i, rfl, ⟨rfl, rfl, rfl, rfl, rfl, rfl⟩, rfl, ?_, ?_, ?_, ?_, ?_⟩
    · refine ⟨by simpa using h.len, ?_, ?_, by simpa using h.size, h.max⟩
      · intro j e he
        simp only at he ⊢
        by_cases hji : i = j
        · subst hji
          rw [List.getElem?_set_self hil] at he
          injection he with he; subst he
          exact ⟨s, rfl, List.getElem?_set_self hsl'⟩
        · rw [List.getElem?_set_ne hji] at he
          obtain ⟨x, h1, h2⟩ := h.entry j e he
          refine ⟨x, h1, ?_⟩
          have hsx : s ≠ x := by
            rintro rfl; exact hns e (List.mem_of_getElem? he) h1
          have htx : t ≠ x := by
            rintro rfl
            rw [ht2] at h2; injection h2 with h2; omega
          rw [List.getElem?_set_ne hsx, List.getElem?_set_ne htx]; exact h2
      · intro x j hj
        simp only at hj ⊢
        by_cases hsx : s = x
        · subst hsx
          rw [List.getElem?_set_self hsl'] at hj
          injection hj with hj
          exact .inr ⟨i, Entry.new A s, hj.symm, List.getElem?_set_self hil, rfl⟩
        · rw [List.getElem?_set_ne hsx] at hj
          by_cases htx : t = x
          · subst htx
            rw [List.getElem?_set_self htl] at hj
            injection hj with hj
            exact .inl hj.symm
          · rw [List.getElem?_set_ne htx] at hj
            rcases h.idx x j hj with h1 | ⟨k, e, h1, h2, h3⟩
            · exact .inl h1
            · right
              have hki : i ≠ k := by
                rintro rfl
                rw [hi] at h2; injection h2 with h2; subst h2
                rw [ht1] at h3; omega
              exact ⟨k, e, h1, by rw [List.getElem?_set_ne hki]; exact h2, h3⟩
    · simp only; rw [List.getElem?_set_self hsl']
    · simp only; rw [List.getElem?_set_self hil]
    · intro e he
      simp only at he
      rw [mem_set_iff hi] at he
      rcases he with he | ⟨j, _, hj⟩
      · exact .inl he
      · exact .inr ⟨List.mem_of_getElem? hj, hns e (List.mem_of_getElem? hj)⟩
    · intro e he
      simp only
      by_cases heo : e = old
      · right; subst heo; exact hmin
      · left
        rw [mem_set_iff hi]
        obtain ⟨j, hj⟩ := List.getElem?_of_mem he
        refine .inr ⟨j, ?_, hj⟩
        rintro rfl
        rw [hi] at hj; injection hj with hj; exact heo hj.symm

/-- the entry `store` leaves -/
def freshEntry (m : Model A) (s : Nat) (d : Data A.C) : Entry A.C :=
  { state := s, accessed := m.counter, updated := m.counter, data := d }

theorem store_spec {m : Model A} (h : Rep m) {s : Nat} (hs : s < m.core.fst.states.length) (d : Data A.C) :
    ∃ m', store (s : Int) d m = .ok (some (), m') ∧ Same m m' ∧ m'.counter = m.counter + 1 ∧ Rep m' ∧
      freshEntry m s d ∈ m'.cache ∧
      (∀ e ∈ m'.cache, e = freshEntry m s d ∨ (e ∈ m.cache ∧ e.state ≠ (s : Int))) ∧
      (∀ e ∈ m.cache, e ∈ m'.cache ∨ e.state = (s : Int) ∨ ∀ e' ∈ m.cache, e.accessed ≤ e'.accessed) := by
  obtain ⟨i, hi, hidx⟩ := h.index_some hs
  have h1 : ∀ m1 : Model A, indexOf m1 (s : Int) = indexOf m1 (s : Int) := fun _ => rfl
  -- after `ensureIndex`
  have key : ∃ (m1 : Model A) (k : Nat), ensureIndex (A := A) i (s : Int) m = .ok (some (), m1) ∧ Same m m1 ∧
      m1.counter = m.counter ∧ Rep m1 ∧ m1.index[s]? = some (k : Int) ∧
      (∃ e0, m1.cache[k]? = some e0 ∧ e0.state = (s : Int)) ∧
      (∀ e ∈ m1.cache, e.state = (s : Int) ∨ (e ∈ m.cache ∧ e.state ≠ (s : Int))) ∧
      (∀ e ∈ m.cache, e ∈ m1.cache ∨ ∀ e' ∈ m.cache, e.accessed ≤ e'.accessed) := by
    rcases h.idx s i hi with hneg | ⟨k, e, hk, hce, hes⟩
    · subst hneg
      obtain ⟨m1, k, a1, a2, a3, a4, a5, a6, a7, a8⟩ := getNewCacheIndex_spec h hi
      refine ⟨m1, k, ?_, a2, a3, a4, a5, ⟨_, a6, rfl⟩, ?_, a8⟩
      · unfold ensureIndex; rw [if_pos (by omega)]; exact a1
      · intro e he
        rcases a7 e he with e1 | e1
        · left; rw [e1]; rfl
        · exact .inr e1
    · refine ⟨m, k, ?_, Same.refl m, rfl, h, by rw [hi, hk], ⟨e, hce, hes⟩, ?_, fun e he => .inl he⟩
      · unfold ensureIndex; rw [if_neg (by omega)]; rfl
      · intro x hx
        by_cases hxs : x.state = (s : Int)
        · exact .inl hxs
        · exact .inr ⟨hx, hxs⟩
  obtain ⟨m1, k, b1, b2, b3, b4, b5, ⟨e0, b6, b6'⟩, b7, b8⟩ := key
  have hidx1 : indexOf m1 (s : Int) = pure (k : Int) := by
    unfold indexOf; rw [if_neg (by omega), toNat_coe, b5]; rfl
  have hset := b4.set b6 (new := freshEntry m s d) (by rw [b6']; rfl) (m.counter + 1)
  refine ⟨{ m1 with cache := m1.cache.set k (freshEntry m s d), counter := m.counter + 1 }, ?_,
    ⟨b2.core, b2.alpha, b2.beta, b2.static, b2.symbols, b2.maxCache⟩, rfl, hset.1, ?_, ?_, ?_⟩
  · unfold store
    rw [PM.reads_bind hidx, PM.bind_some b1, PM.reads_bind hidx1, PM.reads_bind (entryAt_nat b6)]
    unfold PM.modify
    rw [toNat_coe]
    simp only [b3]
    have : ({ state := e0.state, accessed := m.counter, updated := m.counter, data := d } : Entry A.C) =
        freshEntry m s d := by
      rw [b6']; rfl
    rw [this]
  · exact (hset.2 _).mpr (.inl rfl)
  · intro e he
    rcases (hset.2 e).mp he with e1 | ⟨e1, e2⟩
    · exact .inl e1
    · rcases b7 e e1 with e3 | e3
      · exact absurd e3 e2
      · exact .inr e3
  · intro e he
    by_cases hes : e.state = (s : Int)
    · exact .inr (.inl hes)
    · rcases b8 e he with e1 | e1
      · exact .inl ((hset.2 e).mpr (.inr ⟨e1, hes⟩))
      · exact .inr (.inr e1)

/-! ## Freshness -/

/-- The cache invariant, except that the vectors of the contexts extending those in `D` may be out of
date. -/
structure CacheOk (m : Model A) (D : Nat → Prop) : Prop extends Rep m where
  times : ∀ e ∈ m.cache, e.updated ≤ e.accessed ∧ e.accessed < m.counter
  recent : ∀ e ∈ m.cache, ∀ e' ∈ m.cache, Below m.core.fst e'.state.toNat e.state.toNat →
    e.updated < e'.updated → e.accessed < e'.updated
  valid : ∀ e ∈ m.cache,
    Ideal A m.core.fst m.alpha m.beta e.state.toNat e.data ∨
    (∃ e' ∈ m.cache, Below m.core.fst e'.state.toNat e.state.toNat ∧ e.updated < e'.updated) ∨
    ∃ d, D d ∧ (d = e.state.toNat ∨ Below m.core.fst d e.state.toNat)

theorem store_ok {m : Model A} {D : Nat → Prop} (h : CacheOk m D) {s : Nat}
    (hs : s < m.core.fst.states.length) {d : Data A.C} (hd : Ideal A m.core.fst m.alpha m.beta s d) :
    ∃ m', store (s : Int) d m = .ok (some (), m') ∧ Same m m' ∧ CacheOk m' (fun x => D x ∧ x ≠ s) ∧
      ∃ e ∈ m'.cache, e.state = (s : Int) ∧ e.data = d ∧ ∀ e' ∈ m'.cache, e'.updated ≤ e.updated := by
  obtain ⟨m', h1, h2, h3, h4, h5, h6, h7⟩ := store_spec h.toRep hs d
  refine ⟨m', h1, h2, ⟨h4, ?_, ?_, ?_⟩, freshEntry m s d, h5, rfl, rfl, ?_⟩
  · intro e he
    rw [h3]
    rcases h6 e he with rfl | ⟨e1, _⟩
    · simp only [freshEntry]; omega
    · have := h.times e e1; omega
  · intro e he e' he' hb hlt
    rw [h2.core] at hb
    rcases h6 e he with rfl | ⟨e1, _⟩
    · rcases h6 e' he' with rfl | ⟨e1', _⟩
      · simp only [freshEntry] at hlt; omega
      · have := h.times e' e1'
        simp only [freshEntry] at hlt; omega
    · rcases h6 e' he' with rfl | ⟨e1', _⟩
      · have := h.times e e1
        simp only [freshEntry]; omega
      · exact h.recent e e1 e' e1' hb hlt
  · intro e he
    rw [h2.core, h2.alpha, h2.beta]
    rcases h6 e he with rfl | ⟨e1, hne⟩
    · left; simp only [freshEntry, toNat_coe]; exact hd
    · have hold := h.times e e1
      obtain ⟨i, hi⟩ := List.getElem?_of_mem e1
      obtain ⟨t, ht, _⟩ := h.entry i e hi
      have hnet : t ≠ s := by rintro rfl; exact hne ht
      rcases h.valid e e1 with v | ⟨e', v1, v2, v3⟩ | ⟨x, v1, v2⟩
      · exact .inl v
      · rcases h7 e' v1 with w | w | w
        · exact .inr (.inl ⟨e', w, v2, v3⟩)
        · right; left
          refine ⟨freshEntry m s d, h5, ?_, ?_⟩
          · simp only [freshEntry]; rw [← w]; exact v2
          · simp only [freshEntry]; omega
        · exfalso
          have a := h.recent e e1 e' v1 v2 v3
          have b := w e e1
          have c := h.times e' v1
          omega
      · by_cases hxs : x = s
        · subst hxs
          rcases v2 with v2 | v2
          · rw [ht, toNat_coe] at v2; exact absurd v2.symm hnet
          · right; left
            exact ⟨freshEntry m x d, h5, by simpa [freshEntry] using v2, by simp only [freshEntry]; omega⟩
        · exact .inr (.inr ⟨x, ⟨v1, hxs⟩, v2⟩)
  · intro e' he'
    rcases h6 e' he' with rfl | ⟨e1, _⟩
    · exact Int.le_refl _
    · have := h.times e' e1
      simp only [freshEntry]; omega

theorem newer_spec {m : Model A} (h : Rep m) {b : Nat} {i : Int} (hi : m.index[b]? = some i) (lu : Int) :
    ∃ r, newer m lu i = pure r ∧ (r = true ↔ ∃ e ∈ m.cache, e.state = (b : Int) ∧ lu < e.updated) := by
  unfold newer
  rcases h.idx b i hi with rfl | ⟨k, e, rfl, h2, h3⟩
  · rw [if_neg (by omega)]
    refine ⟨false, rfl, ?_⟩
    simp only [Bool.false_eq_true, false_iff]
    rintro ⟨e, he, hes, _⟩
    obtain ⟨j, hj⟩ := List.getElem?_of_mem he
    obtain ⟨t, ht, ht'⟩ := h.entry j e hj
    have : t = b := by omega
    subst this
    rw [hi] at ht'; injection ht' with ht'; omega
  · rw [if_pos (by omega), entryAt_nat h2]
    refine ⟨decide (e.updated > lu), rfl, ?_⟩
    simp only [decide_eq_true_eq]
    constructor
    · intro hu; exact ⟨e, List.mem_of_getElem? h2, h3, hu⟩
    · rintro ⟨e', he', hes', hu⟩
      have := h.unique he' (List.mem_of_getElem? h2) (by rw [hes', h3])
      subst this; exact hu

section Ensure
variable {Ok : A.C → Prop} {ord : Nat → Nat} {mo : Int} {V u : Nat}

theorem lowerLoop_spec {m : Model A} (h : Rep m) (wf : WF A Ok m.core.fst ord mo V u) (lu : Int) :
    ∀ n s, s < m.core.fst.states.length → ord s + 1 ≤ n →
      ∃ r, lowerLoop m lu n (idOf (backoff m.core.fst s)) = pure r ∧
        (r = true ↔ ∃ e ∈ m.cache, Below m.core.fst e.state.toNat s ∧ lu < e.updated) := by
  intro n
  induction n with
  | zero => intro s _ hn; omega
  | succ n ih =>
    intro s hs hn
    unfold lowerLoop
    cases hb : backoff m.core.fst s with
    | none =>
      rw [if_pos (by simp [idOf])]
      refine ⟨false, rfl, ?_⟩
      simp only [Bool.false_eq_true, false_iff]
      rintro ⟨e, _, hbe, _⟩
      exact not_below_of_none hb hbe
    | some b =>
      have hw := wf.of_backoff hb
      rw [if_neg (by simp only [idOf]; omega)]
      obtain ⟨i, hi, hidx⟩ := h.index_some hw.2.2.1
      simp only [idOf]
      rw [hidx]
      simp only [Res.pure_bind]
      obtain ⟨r, hr, hr'⟩ := newer_spec h hi lu
      rw [hr]
      simp only [Res.pure_bind]
      cases r with
      | true =>
        refine ⟨true, rfl, ?_⟩
        simp only [true_iff]
        obtain ⟨e, he, hes, hu⟩ := hr'.mp rfl
        exact ⟨e, he, .step (by rw [hes, toNat_coe]; exact hb), hu⟩
      | false =>
        simp only [Bool.false_eq_true, if_false]
        rw [wf.getBackoff hw.2.2.1]
        simp only [Res.pure_bind]
        obtain ⟨r', hr1, hr2⟩ := ih b hw.2.2.1 (by omega)
        refine ⟨r', hr1, hr2.trans ?_⟩
        constructor
        · rintro ⟨e, he, hbe, hu⟩
          exact ⟨e, he, .trans hb hbe, hu⟩
        · rintro ⟨e, he, hbe, hu⟩
          rcases (below_iff hb).mp hbe with hx | hx
          · exfalso
            have : (false = true) := hr'.mpr ⟨e, he, by
              obtain ⟨j, hj⟩ := List.getElem?_of_mem he
              obtain ⟨t, ht, _⟩ := h.entry j e hj
              rw [ht] at hx ⊢; simp only [toNat_coe] at hx; omega, hu⟩
            cases this
          · exact ⟨e, he, hx, hu⟩

/-- the members of the model `ensure` and `updateCacheAtState` leave alone do not change well-formedness -/
theorem WF.same {m m' : Model A} (wf : WF A Ok m.core.fst ord mo V u) (h : Same m m') :
    WF A Ok m'.core.fst ord mo V u := by rw [h.core]; exact wf

/-- What `EnsureCacheAtState` achieves. -/
def EnsureSpec (ensure : Int → PM A (Entry A.C)) (m : Model A) (s : Nat) (D : Nat → Prop) : Prop :=
  ∃ e m', ensure (s : Int) m = .ok (some e, m') ∧ Same m m' ∧ CacheOk m' D ∧
    Ideal A m.core.fst m.alpha m.beta s e.data ∧ e.state = (s : Int) ∧ e ∈ m'.cache

/-- `UpdateCacheAtState` refreshes the entry of `s`. -/
theorem updateCacheWith_ok {m : Model A} (L : CountLaws A Ok m.beta) (wf : WF A Ok m.core.fst ord mo V u)
    {D : Nat → Prop} (h : CacheOk m D) {s : Nat} (hs : s < m.core.fst.states.length)
    {ensure : Int → PM A (Entry A.C)}
    (hens : ∀ b, backoff m.core.fst s = some b → EnsureSpec ensure m b D) :
    ∃ m', updateCacheAtStateWith ensure (s : Int) m = .ok (some (), m') ∧ Same m m' ∧
      CacheOk m' (fun x => D x ∧ x ≠ s) ∧
      ∃ e ∈ m'.cache, e.state = (s : Int) ∧ Ideal A m.core.fst m.alpha m.beta s e.data ∧
        ∀ e' ∈ m'.cache, e'.updated ≤ e.updated := by
  unfold updateCacheAtStateWith
  rw [PM.reads_bind (a := m.core.fst.states.length) rfl]
  rw [if_neg (by omega), if_neg (by omega)]
  rw [PM.reads_bind (wf.getBackoff hs)]
  obtain ⟨d, hd, hdsz⟩ := wf.ideal L m.alpha s hs
  have hback : ∃ bd m1, backoffData ensure (idOf (backoff m.core.fst s)) m = .ok (some bd, m1) ∧ Same m m1 ∧
      CacheOk m1 D ∧ stateData A m.core.fst m.alpha m.beta s (idOf (backoff m.core.fst s)) bd = pure d := by
    unfold backoffData
    cases hd with
    | unigram hb hsd =>
      rw [hb, if_neg (by simp [idOf])]
      exact ⟨_, m, rfl, Same.refl m, h, hsd⟩
    | node hb hbd hsd =>
      rename_i b bd
      rw [hb, if_pos (by simp [idOf])]
      obtain ⟨e, m1, h1, h2, h3, h4, _⟩ := hens b hb
      have := h4.unique hbd
      refine ⟨bd, m1, ?_, h2, h3, hsd⟩
      rw [show idOf (some b) = (b : Int) from rfl, PM.bind_some h1, this]
      rfl
  obtain ⟨bd, m1, h1, h2, h3, h4⟩ := hback
  rw [PM.bind_some h1]
  rw [PM.reads_bind (a := d) (by
    simp only [h2.core, h2.alpha, h2.beta]; exact h4)]
  obtain ⟨m', g1, g2, g3, e, g4, g5, g6, g7⟩ := store_ok h3 (s := s) (d := d) (by rw [h2.core]; exact hs)
    (by rw [h2.core, h2.alpha, h2.beta]; exact hd)
  exact ⟨m', g1, h2.trans g2, g3, e, g4, g5, by rw [g6]; exact hd, g7⟩

theorem CacheOk.mono {m : Model A} {D D' : Nat → Prop} (h : CacheOk m D) (hD : ∀ x, D x → D' x) :
    CacheOk m D' := by
  refine ⟨h.toRep, h.times, h.recent, ?_⟩
  intro e he
  rcases h.valid e he with v | v | ⟨x, v1, v2⟩
  · exact .inl v
  · exact .inr (.inl v)
  · exact .inr (.inr ⟨x, hD x v1, v2⟩)

/-- Recording an access to an entry that no lower-order entry outdates. -/
theorem touch_ok {m : Model A} {D : Nat → Prop} (h : CacheOk m D) {k : Nat} {e : Entry A.C}
    (hk : m.cache[k]? = some e)
    (hno : ¬ ∃ e' ∈ m.cache, Below m.core.fst e'.state.toNat e.state.toNat ∧ e.updated < e'.updated) :
    CacheOk { m with
      cache := m.cache.set k { e with accessed := m.counter }
      counter := m.counter + 1 } D := by
  have hset := h.toRep.set hk (new := { e with accessed := m.counter }) rfl (m.counter + 1)
  have hmem := List.mem_of_getElem? hk
  have hold : ∀ x ∈ m.cache.set k { e with accessed := m.counter }, ∃ y ∈ m.cache,
      x.state = y.state ∧ x.updated = y.updated ∧ x.data = y.data ∧
      (x = y ∨ (x = { e with accessed := m.counter } ∧ y = e)) := by
    intro x hx
    rcases (hset.2 x).mp hx with rfl | ⟨hx, _⟩
    · exact ⟨e, hmem, rfl, rfl, rfl, .inr ⟨rfl, rfl⟩⟩
    · exact ⟨x, hx, rfl, rfl, rfl, .inl rfl⟩
  refine ⟨hset.1, ?_, ?_, ?_⟩
  · intro x hx
    obtain ⟨y, hy, _, _, _, hxy⟩ := hold x hx
    have ht := h.times y hy
    rcases hxy with rfl | ⟨rfl, rfl⟩
    · simp only; omega
    · simp only; omega
  · intro x hx x' hx' hb hlt
    obtain ⟨y, hy, a1, a2, a3, hxy⟩ := hold x hx
    obtain ⟨y', hy', b1, b2, b3, _⟩ := hold x' hx'
    simp only [a1, b1] at hb
    rw [a2, b2] at hlt
    rcases hxy with rfl | ⟨rfl, rfl⟩
    · rw [b2]; exact h.recent x hy y' hy' hb hlt
    · exact absurd ⟨y', hy', hb, hlt⟩ hno
  · intro x hx
    obtain ⟨y, hy, a1, a2, a3, _⟩ := hold x hx
    simp only [a1, a2, a3]
    rcases h.valid y hy with v | ⟨e', v1, v2, v3⟩ | v
    · exact .inl v
    · right; left
      by_cases hes : e'.state = e.state
      · have := h.unique v1 hmem hes
        subst this
        exact ⟨{ e' with accessed := m.counter }, (hset.2 _).mpr (.inl rfl), v2, v3⟩
      · exact ⟨e', (hset.2 _).mpr (.inr ⟨v1, hes⟩), v2, v3⟩
    · exact .inr (.inr v)

theorem ensureCache_ok {alpha beta : A.D} (L : CountLaws A Ok beta) {f : Fst A.C} (wf : WF A Ok f ord mo V u)
    {D : Nat → Prop} :
    ∀ n s, s < f.states.length → ord s + 2 ≤ n → (∀ x, D x → ¬ (x = s ∨ Below f x s)) →
      ∀ m : Model A, m.core.fst = f → m.alpha = alpha → m.beta = beta → CacheOk m D →
      EnsureSpec (ensureCache n) m s D := by
  intro n
  induction n with
  | zero => intro s _ hn; omega
  | succ n ih =>
    intro s hs hn hD m hf ha hb h
    subst hf ha hb
    obtain ⟨i, hi, hidx⟩ := h.index_some hs
    have hcommon : ∀ m1 : Model A, Rep m1 → ∀ e1 ∈ m1.cache, e1.state = (s : Int) →
        ∃ k : Nat, indexOf m1 (s : Int) = pure (k : Int) ∧ m1.cache[k]? = some e1 := by
      intro m1 hr e1 he1 hes
      obtain ⟨k, hk⟩ := List.getElem?_of_mem he1
      obtain ⟨t, h1, h2⟩ := hr.entry k e1 hk
      have : t = s := by omega
      subst this
      refine ⟨k, ?_, hk⟩
      unfold indexOf; rw [if_neg (by omega), toNat_coe, h2]; rfl
    have hupd : ∃ m', updateCacheAtStateWith (ensureCache n) (s : Int) m = .ok (some (), m') ∧ Same m m' ∧
        CacheOk m' (fun x => D x ∧ x ≠ s) ∧
        ∃ e ∈ m'.cache, e.state = (s : Int) ∧ Ideal A m.core.fst m.alpha m.beta s e.data ∧
        ∀ e' ∈ m'.cache, e'.updated ≤ e.updated := by
      refine updateCacheWith_ok L wf h hs ?_
      intro b hb
      have hw := wf.of_backoff hb
      refine ih b hw.2.2.1 (by omega) ?_ m rfl rfl rfl h
      rintro x hx (rfl | hxb)
      · exact hD x hx (.inr (.step hb))
      · exact hD x hx (.inr (.trans hb hxb))
    -- stale or not
    have hstale : ∃ r, lowerOrderCacheUpdated n m (s : Int) = pure r ∧
        (r = false → ∃ (k : Nat) (e : Entry A.C), i = (k : Int) ∧ m.cache[k]? = some e ∧ e.state = (s : Int) ∧
          ¬ ∃ e' ∈ m.cache, Below m.core.fst e'.state.toNat e.state.toNat ∧ e.updated < e'.updated) := by
      unfold lowerOrderCacheUpdated
      rw [hidx]
      simp only [Res.pure_bind]
      rcases h.idx s i hi with rfl | ⟨k, e, rfl, h2, h3⟩
      · rw [if_pos (by omega)]; exact ⟨true, rfl, fun h => by cases h⟩
      · rw [if_neg (by omega), entryAt_nat h2]
        simp only [Res.pure_bind]
        rw [wf.getBackoff hs]
        simp only [Res.pure_bind]
        obtain ⟨r, hr1, hr2⟩ := lowerLoop_spec h.toRep wf e.updated n s hs (by omega)
        refine ⟨r, hr1, ?_⟩
        rintro rfl
        refine ⟨k, e, rfl, h2, h3, ?_⟩
        rintro ⟨e', he', hbe, hu⟩
        rw [h3, toNat_coe] at hbe
        have := hr2.mpr ⟨e', he', hbe, hu⟩
        cases this
    obtain ⟨r, hr1, hr2⟩ := hstale
    unfold EnsureSpec
    unfold ensureCache
    rw [PM.reads_bind hr1]
    cases r with
    | true =>
      obtain ⟨m', g1, g2, g3, e, g4, g5, g6, _⟩ := hupd
      obtain ⟨k, hk1, hk2⟩ := hcommon m' g3.toRep e g4 g5
      have hkl := lt_of_getElem?_eq_some hk2
      rw [PM.bind_some (m' := m') (a := ()) (by unfold whenM; exact g1), PM.reads_bind hk1,
        PM.reads_bind (a := m'.cache.length) rfl]
      rw [if_neg (by omega), if_neg (by omega), PM.reads_bind (entryAt_nat hk2),
        if_neg (by rw [g5]; simp)]
      exact ⟨e, m', rfl, g2, g3.mono (fun x hx => hx.1), g6, g5, g4⟩
    | false =>
      obtain ⟨k, e, rfl, hk2, hes, hno⟩ := hr2 rfl
      have hkl := lt_of_getElem?_eq_some hk2
      have hmem := List.mem_of_getElem? hk2
      have hst : e.state.toNat = s := by rw [hes, toNat_coe]
      have hideal : Ideal A m.core.fst m.alpha m.beta s e.data := by
        rcases h.valid e hmem with v | v | ⟨x, v1, v2⟩
        · rw [hst] at v; exact v
        · exact absurd v hno
        · rw [hst] at v2; exact absurd v2 (hD x v1)
      rw [PM.bind_some (m' := m) (a := ()) (by unfold whenM; rfl), PM.reads_bind hidx,
        PM.reads_bind (a := m.cache.length) rfl]
      rw [if_neg (by omega), if_neg (by omega), PM.reads_bind (entryAt_nat hk2),
        if_neg (by rw [hes]; simp)]
      simp only [Bool.false_eq_true, if_false]
      rw [PM.reads_bind (a := m.counter) rfl]
      simp only [PM.modify_bind, PM.pure_apply, toNat_coe]
      exact ⟨_, _, rfl, ⟨rfl, rfl, rfl, rfl, rfl, rfl⟩, touch_ok h hk2 hno, hideal, hes,
        List.mem_of_getElem? (i := k) (by simp only [List.getElem?_set, if_true]; rw [if_pos hkl])⟩

/-- `EnsureCacheAtState` returns the vectors computed afresh. -/
theorem ensure_ok {m : Model A} (L : CountLaws A Ok m.beta)
    (wf : WF A Ok m.core.fst ord m.core.maxOrder V u) {D : Nat → Prop} (h : CacheOk m D) {s : Nat}
    (hs : s < m.core.fst.states.length) (hD : ∀ x, D x → ¬ (x = s ∨ Below m.core.fst x s)) :
    EnsureSpec ensureCacheAtState m s D := by
  unfold EnsureSpec ensureCacheAtState
  have := wf.ord_lt hs
  exact ensureCache_ok (alpha := m.alpha) L wf m.fuel s hs (by unfold Model.fuel; omega) hD m rfl rfl rfl h

/-- `UpdateCacheAtState` brings the entry of `s` up to date. -/
theorem updateCache_ok {m : Model A} (L : CountLaws A Ok m.beta)
    (wf : WF A Ok m.core.fst ord m.core.maxOrder V u) {D : Nat → Prop} (h : CacheOk m D) {s : Nat}
    (hs : s < m.core.fst.states.length) (hD : ∀ x, D x → ¬ Below m.core.fst x s) :
    ∃ m', updateCacheAtState (s : Int) m = .ok (some (), m') ∧ Same m m' ∧
      CacheOk m' (fun x => D x ∧ x ≠ s) := by
  obtain ⟨m', h1, h2, h3, _⟩ := updateCacheWith_ok L wf h hs (ensure := ensureCacheAtState) (by
    intro b hb
    have hw := wf.of_backoff hb
    refine ensure_ok L wf h hw.2.2.1 ?_
    rintro x hx (rfl | hxb)
    · exact hD x hx (.step hb)
    · exact hD x hx (.trans hb hxb))
  exact ⟨m', h1, h2, h3⟩

end Ensure
end Mozolm.Ppm
