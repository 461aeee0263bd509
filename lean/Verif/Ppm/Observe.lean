import Verif.Ppm.Update

/-! # One observation: `UpdateModel` -/

namespace Mozolm.Ppm
variable {A : Arith} {Ok : A.C → Prop}

/-! ## Origins and destinations -/

theorem Ideal.sized {beta : A.D} (L : CountLaws A Ok beta) {f : Fst A.C} {ord : Nat → Nat} {mo : Int}
    {V u : Nat} (wf : WF A Ok f ord mo V u) {alpha : A.D} {s : Nat} {d : Data A.C}
    (h : Ideal A f alpha beta s d) (hs : s < f.states.length) : d.Sized (V + 1) := by
  obtain ⟨d', h', hsz⟩ := wf.ideal L alpha s hs
  rw [h.unique h']; exact hsz

/-- what the vectors of a state are made of -/
theorem Ideal.cases' {beta : A.D} (L : CountLaws A Ok beta) {f : Fst A.C} {ord : Nat → Nat} {mo : Int}
    {V u : Nat} (wf : WF A Ok f ord mo V u) {alpha : A.D} {s : Nat} {d : Data A.C}
    (h : Ideal A f alpha beta s d) (hs : s < f.states.length) :
    ∃ (st : FState A.C) (bd : Data A.C), f.states[s]? = some st ∧ (∀ b, backoff f s = some b → Ideal A f alpha beta b bd ∧ bd.Sized (V + 1)) ∧
      ((s ≠ u ∧ Unseen A f s ∧ d = bd) ∨
        (Blended A f alpha beta s st bd d (V + 1) ∧ ∃ y : Nat, y ≤ V ∧ (count A f s y).isSome)) := by
  obtain ⟨st, hst, ok⟩ := wf.exists_state hs
  cases h with
  | unigram hb hd =>
    have hu := wf.backoff_none hs hb
    obtain ⟨d', h1, _, h3⟩ := stateData_spec L wf hst alpha (bd := Data.empty A) (fun e => absurd hu e)
    rw [hb] at h1
    have : d = d' := Res.pure_inj (hd.symm.trans h1)
    subst this
    exact ⟨st, Data.empty A, hst, fun b hb' => (by rw [hb] at hb'; cases hb'), h3⟩
  | node hb hbd hd =>
    have hw := wf.of_backoff hb
    have hsz := hbd.sized L wf hw.2.2.1
    obtain ⟨d', h1, _, h3⟩ := stateData_spec L wf hst alpha (fun _ => hsz)
    rw [hb] at h1
    have : d = d' := Res.pure_inj (hd.symm.trans h1)
    subst this
    refine ⟨st, _, hst, fun b hb' => ?_, h3⟩
    rw [hb] at hb'; injection hb' with e; subst e
    exact ⟨hbd, hsz⟩

/-- The cached origin of a symbol is the longest context where it was observed; the cached destination
is where its arc leads from there. -/
theorem Ideal.lookup {beta : A.D} (L : CountLaws A Ok beta) {f : Fst A.C} {ord : Nat → Nat} {mo : Int}
    {V u : Nat} (wf : WF A Ok f ord mo V u) {alpha : A.D} {y : Nat} (hy : y ≤ V) {s o : Nat}
    (ho : Origin A f y s o) : ∀ {d : Data A.C}, Ideal A f alpha beta s d → s < f.states.length →
      d.origin[y]? = some (o : Int) ∧ d.dest[y]? = (target f o y).map Int.ofNat := by
  induction ho with
  | here hc =>
    intro d h hs
    obtain ⟨st, bd, hst, _, h1 | ⟨h1, _⟩⟩ := h.cases' L wf hs
    · rw [h1.2.1 y] at hc; cases hc
    · rw [h1.origin y (by omega), h1.dest y (by omega), if_pos hc, if_pos hc]
      exact ⟨rfl, rfl⟩
  | lower hc hb _ ih =>
    intro d h hs
    have hw := wf.of_backoff hb
    obtain ⟨st, bd, hst, hbd, h1 | ⟨h1, _⟩⟩ := h.cases' L wf hs
    · rw [h1.2.2]; exact ih (hbd _ hb).1 hw.2.2.1
    · have := ih (hbd _ hb).1 hw.2.2.1
      rw [h1.origin y (by omega), h1.dest y (by omega), hc]
      simp only [Option.isSome_none, Bool.false_eq_true, if_false, initData]
      rw [hb, if_pos (by simp [idOf])]
      exact this

theorem WF.count_u {f : Fst A.C} {beta : A.D} (L : CountLaws A Ok beta) {ord : Nat → Nat} {mo : Int} {V u : Nat}
    (wf : WF A Ok f ord mo V u) {y : Int} (h0 : 0 ≤ y) (hV : y ≤ V) : (count A f u y).isSome = true := by
  obtain ⟨st, hst, ok⟩ := wf.exists_state wf.u_lt
  rw [count_of hst]
  simp only [stateCount]
  by_cases hy : y = 0
  · rw [if_pos hy, L.finite _ (ok.unigram rfl).1]; rfl
  · rw [if_neg hy]
    obtain ⟨a, ha, hl⟩ := (ok.unigram rfl).2.2.2 y (by omega) hV
    simp only [Option.isSome_map, List.find?_isSome]
    exact ⟨a, ha, by simp [hl]⟩

theorem WF.origin {f : Fst A.C} {beta : A.D} (L : CountLaws A Ok beta) {ord : Nat → Nat} {mo : Int} {V u : Nat}
    (wf : WF A Ok f ord mo V u) {y : Int} (h0 : 0 ≤ y) (hV : y ≤ V) :
    ∀ s, s < f.states.length → ∃ o, Origin A f y s o := by
  have key : ∀ k s, ord s = k → s < f.states.length → ∃ o, Origin A f y s o := by
    intro k
    induction k with
    | zero =>
      intro s hk hs
      have hu : s = u := by
        apply Classical.byContradiction
        intro hu
        obtain ⟨b, _, _, ho⟩ := wf.backoff_node hs hu
        omega
      exact ⟨s, .here (by rw [hu]; exact wf.count_u L h0 hV)⟩
    | succ k ih =>
      intro s hk hs
      cases hc : count A f s y with
      | some w => exact ⟨s, .here (by rw [hc]; rfl)⟩
      | none =>
        have hu : s ≠ u := by intro e; rw [e, wf.ord_u] at hk; cases hk
        obtain ⟨b, hb, hbl, ho⟩ := wf.backoff_node hs hu
        obtain ⟨o, h⟩ := ih b (by omega) hbl
        exact ⟨o, .lower hc hb h⟩
  exact fun s hs => key _ s rfl hs

theorem Origin.lt {f : Fst A.C} {ord : Nat → Nat} {mo : Int} {V u : Nat} (wf : WF A Ok f ord mo V u)
    {y : Int} {s o : Nat} (h : Origin A f y s o) (hs : s < f.states.length) :
    o < f.states.length ∧ ord o ≤ ord s ∧ (count A f o y).isSome = true := by
  induction h with
  | here hc => exact ⟨hs, Nat.le_refl _, hc⟩
  | lower _ hb _ ih =>
    have hw := wf.of_backoff hb
    have := ih hw.2.2.1
    exact ⟨this.1, by omega, this.2.2⟩

theorem Excluded.isBelow {f : Fst A.C} {y : Int} {s x : Nat} (h : Excluded A f y s x) : x = s ∨ Below f x s := by
  induction h with
  | here => exact .inl rfl
  | lower _ hb _ ih =>
    right
    rcases ih with rfl | ih
    · exact .step hb
    · exact .trans hb ih

theorem Excluded.ord_le {f : Fst A.C} {ord : Nat → Nat} {mo : Int} {V u : Nat} (wf : WF A Ok f ord mo V u)
    {y : Int} {s x : Nat} (h : Excluded A f y s x) : ord x ≤ ord s := by
  rcases h.isBelow with rfl | h
  · exact Nat.le_refl _
  · have := (h.ord_lt wf).1; omega

theorem excluded_iff_some {f : Fst A.C} {y : Int} {s x : Nat} {w : A.C} (hc : count A f s y = some w) :
    Excluded A f y s x ↔ x = s := by
  constructor
  · intro h
    cases h with
    | here => rfl
    | lower hc' _ _ => rw [hc] at hc'; cases hc'
  · rintro rfl; exact .here

theorem excluded_iff_none {f : Fst A.C} {y : Int} {s b x : Nat} (hc : count A f s y = none)
    (hb : backoff f s = some b) : Excluded A f y s x ↔ x = s ∨ Excluded A f y b x := by
  constructor
  · intro h
    cases h with
    | here => exact .inl rfl
    | lower _ hb' h => rw [hb] at hb'; injection hb' with e; subst e; exact .inr h
  · rintro (rfl | h)
    · exact .here
    · exact .lower hc hb h

theorem Excluded.congr {f f' : Fst A.C} {y : Int} (hc : ∀ x, count A f' x y = count A f x y)
    (hb : ∀ x, backoff f' x = backoff f x) {s x : Nat} (h : Excluded A f y s x) : Excluded A f' y s x := by
  induction h with
  | here => exact .here
  | lower h1 h2 _ ih => exact .lower (by rw [hc]; exact h1) (by rw [hb]; exact h2) ih

theorem Origin.congr {f f' : Fst A.C} {y : Int} (hc : ∀ x, count A f' x y = count A f x y)
    (hb : ∀ x, backoff f' x = backoff f x) {s x : Nat} (h : Origin A f y s x) : Origin A f' y s x := by
  induction h with
  | here h => exact .here (by rw [hc]; exact h)
  | lower h1 h2 _ ih => exact .lower (by rw [hc]; exact h1) (by rw [hb]; exact h2) ih

theorem below_same {f f' : Fst A.C} {ord : Nat → Nat} {mo : Int} {V u : Nat} (wf : WF A Ok f ord mo V u)
    (h : ∀ x, x < f.states.length → backoff f' x = backoff f x) {x t : Nat} (ht : t < f.states.length) :
    Below f' x t ↔ Below f x t := by
  constructor
  · intro hb
    induction hb with
    | step e => rw [h _ ht] at e; exact .step e
    | trans e _ ih =>
      rw [h _ ht] at e
      exact .trans e (ih (wf.of_backoff e).2.2.1)
  · intro hb
    induction hb with
    | step e => rw [← h _ ht] at e; exact .step e
    | trans e _ ih =>
      have := (wf.of_backoff e).2.2.1
      rw [← h _ ht] at e
      exact .trans e (ih this)

/-! ## One observation -/

/-- A count after one more observation. -/
def bump (A : Arith) : Option A.C → A.C
  | some w => A.nls w A.one
  | none => A.one

/-- Where the arc of `y` at `x` leads after an observation, if it led to `d`, or would lead there for lack of a longer
context: to a new context that backs off to `d`, if there is room for one and `d` is not it. -/
structure Led {C : Type} (c c' : Core C) (ord ord' : Nat → Nat) (x : Nat) (y : Int) (d : Nat) : Prop where
  lt : d < c'.fst.states.length
  new : ord' d = ord x ∧ (ord x : Int) + 1 < c.maxOrder → ∃ t, target c'.fst x y = some t ∧
    c.fst.states.length ≤ t ∧ t < c'.fst.states.length ∧ backoff c'.fst t = some d ∧ ord' t = ord x + 1
  old : ¬ (ord' d = ord x ∧ (ord x : Int) + 1 < c.maxOrder) → target c'.fst x y = some d

theorem WF.target_lt {f : Fst A.C} {ord : Nat → Nat} {mo : Int} {V u : Nat} (wf : WF A Ok f ord mo V u) {x d : Nat} {y : Int}
    (h : target f x y = some d) : d < f.states.length := by
  by_cases hy : y = 0
  · simp only [target, if_pos hy] at h
    injection h with h
    rw [← h]; exact wf.start_lt
  · simp only [target, if_neg hy] at h
    cases hst : f.states[x]? with
    | none => rw [hst] at h; cases h
    | some st =>
      rw [hst] at h
      simp only [Option.bind_some, Option.map_eq_some_iff] at h
      obtain ⟨a, ha, rfl⟩ := h
      have hl : a.label = y := by have := List.find?_some ha; simpa using this
      exact ((wf.states x st hst).arcs a (List.mem_of_find?_eq_some ha) (by rw [hl]; exact hy)).2.1

/-- What one observation of `y` after `s` does to the automaton. -/
structure Observed (A : Arith) (Ok : A.C → Prop) (c c' : Core A.C) (ord ord' : Nat → Nat) (V u s : Nat)
    (y : Int) : Prop where
  maxOrder : c'.maxOrder = c.maxOrder
  start : c'.fst.start = c.fst.start
  len : c.fst.states.length ≤ c'.fst.states.length
  sameBackoff : ∀ x, x < c.fst.states.length → backoff c'.fst x = backoff c.fst x
  sameOrd : ∀ x, x < c.fst.states.length → ord' x = ord x
  orders : OrdersOk c' ord'
  wf : WF A Ok c'.fst ord' c'.maxOrder V u
  fresh : ∀ x, c.fst.states.length ≤ x → x < c'.fst.states.length →
    Unseen A c'.fst x ∧ storedTotal c'.fst x = some A.one
  outside : ∀ x, x < c.fst.states.length → ¬ Excluded A c.fst y s x → c'.fst.states[x]? = c.fst.states[x]?
  count_self : ∀ x, Excluded A c.fst y s x → count A c'.fst x y = some (bump A (count A c.fst x y))
  count_other : ∀ x z, x < c.fst.states.length → z ≠ y → count A c'.fst x z = count A c.fst x z
  target_other : ∀ x z, x < c.fst.states.length → z ≠ y → target c'.fst x z = target c.fst x z
  total_unseen : ∀ x, Excluded A c.fst y s x → Unseen A c.fst x →
    storedTotal c'.fst x = storedTotal c.fst x
  total_seen : ∀ x, Excluded A c.fst y s x → ¬ Unseen A c.fst x →
    storedTotal c'.fst x = (storedTotal c.fst x).map fun w => A.nls w A.one
  next : ∃ t, target c'.fst s y = some t ∧ t < c'.fst.states.length ∧
    (y ≠ 0 → (ord' t = ord s ∨ ord' t = ord s + 1) ∧
      ((ord s : Int) + 1 < c.maxOrder → ord' t = ord s + 1))
  ended : y = 0 → c'.fst.states.length = c.fst.states.length
  found : y ≠ 0 → ∀ x d, Excluded A c.fst y s x → (count A c.fst x y).isSome = true → target c.fst x y = some d →
    Led c c' ord ord' x y d
  lower : y ≠ 0 → ∀ x b, Excluded A c.fst y s x → count A c.fst x y = none → backoff c.fst x = some b →
    ∃ d, target c'.fst b y = some d ∧ Led c c' ord ord' x y d
  grown : ∀ t, c.fst.states.length ≤ t → t < c'.fst.states.length → ∃ x, Excluded A c.fst y s x ∧
    target c'.fst x y = some t ∧ (ord x : Int) + 1 < c.maxOrder ∧ ord' t = ord x + 1

/-- parameters are never changed -/
structure Params (m m' : Model A) : Prop where
  alpha : m'.alpha = m.alpha
  beta : m'.beta = m.beta
  static : m'.static = m.static
  symbols : m'.symbols = m.symbols
  maxCache : m'.maxCache = m.maxCache

theorem Same.params {m m' : Model A} (h : Same m m') : Params m m' :=
  ⟨h.alpha, h.beta, h.static, h.symbols, h.maxCache⟩

theorem Params.refl (m : Model A) : Params m m := ⟨rfl, rfl, rfl, rfl, rfl⟩

theorem Params.trans {m m' m'' : Model A} (h : Params m m') (h' : Params m' m'') : Params m m'' :=
  ⟨h'.alpha.trans h.alpha, h'.beta.trans h.beta, h'.static.trans h.static, h'.symbols.trans h.symbols,
    h'.maxCache.trans h.maxCache⟩

theorem setCore_params (m : Model A) (c : Core A.C) : Params m (m.setCore c) := ⟨rfl, rfl, rfl, rfl, rfl⟩

/-- The backoff increment as a change at `s`. -/
theorem incr_changed {c : Core A.C} {ord : Nat → Nat} {s : Nat} {f1 : Fst A.C}
    (h1 : f1.states.length = c.fst.states.length) (h2 : f1.start = c.fst.start)
    (h3 : ∀ x, x ≠ s → f1.states[x]? = c.fst.states[x]?)
    (h4 : ∀ x, backoff f1 x = backoff c.fst x) : Changed A c { c with fst := f1 } ord ord s := by
  refine ⟨rfl, h2, by simp [h1], fun x _ hx => h3 x hx, fun x _ => h4 x, fun _ _ => rfl,
    fun ho => ho.setFst h1, ?_⟩
  intro x g1 g2; simp only [h1] at g2; omega

/-- incrementing the backoff arc of `s`, then adding to the count of `y` there -/
theorem Observed.of_found {c c' : Core A.C} {ord ord' : Nat → Nat} {V u s : Nat} {y : Int} {w : A.C}
    {f1 : Fst A.C} (hs : s < c.fst.states.length) (hy : count A c.fst s y = some w)
    (h1 : f1.states.length = c.fst.states.length) (h2 : f1.start = c.fst.start)
    (h3 : ∀ x, x ≠ s → f1.states[x]? = c.fst.states[x]?)
    (h4 : ∀ x, backoff f1 x = backoff c.fst x)
    (h5 : ∀ x y, count A f1 x y = count A c.fst x y)
    (h6 : ∀ x y, target f1 x y = target c.fst x y)
    (h7 : Unseen A c.fst s → storedTotal f1 s = storedTotal c.fst s)
    (h8 : ¬ Unseen A c.fst s → storedTotal f1 s = (storedTotal c.fst s).map fun w => A.nls w A.one)
    (ho : OrdersOk c ord) (hdlt : y ≠ 0 → ∀ d, target f1 s y = some d → d < f1.states.length)
    (hadd : Added A Ok { c with fst := f1 } c' ord ord' V u s y (A.nls w A.one))
    (hend : y = 0 → c'.fst.states.length = f1.states.length)
    (hdest : y ≠ 0 → ∀ d, target f1 s y = some d → Dest { c with fst := f1 } c' ord ord' s y d) :
    Observed A Ok c c' ord ord' V u s y := by
  have hex : ∀ x, Excluded A c.fst y s x ↔ x = s := fun x => excluded_iff_some hy
  have hlen := hadd.len
  simp only [h1] at hlen
  have hcnt : ∀ x, x < c.fst.states.length → x ≠ s → c'.fst.states[x]? = c.fst.states[x]? := by
    intro x hx hxs
    rw [hadd.others x (by simp only [h1]; exact hx) hxs]; exact h3 x hxs
  have htlt : ∀ d, target f1 s y = some d → d < f1.states.length := by
    intro d hd
    by_cases hy0 : y = 0
    · simp only [target, if_pos hy0] at hd
      injection hd with hd
      have := hadd.wf.start_lt
      rw [hadd.start] at this
      simp only at this
      rw [← hd, ← hend hy0]; exact this
    · exact hdlt hy0 d hd
  refine ⟨hadd.maxOrder, hadd.start.trans h2, hlen, ?_, ?_, hadd.orders (ho.setFst h1), hadd.wf, ?_, ?_, ?_, ?_,
    ?_, ?_, ?_, ?_, fun h => by rw [hend h, h1], ?_, ?_, ?_⟩
  · intro x hx; rw [hadd.sameBackoff x (by simp only [h1]; exact hx)]; exact h4 x
  · intro x hx; exact hadd.sameOrd x (by simp only [h1]; exact hx)
  · intro x g1 g2; exact hadd.fresh x (by simp only [h1]; exact g1) g2
  · intro x hx hne
    exact hcnt x hx (fun e => hne ((hex x).mpr e))
  · intro x hx
    rw [(hex x).mp hx, hadd.count_self, hy]; rfl
  · intro x z hx hz
    by_cases hxs : x = s
    · subst hxs; rw [hadd.count_other z hz]; exact h5 x z
    · simp only [count]; rw [hcnt x hx hxs]
  · intro x z hx hz
    by_cases hxs : x = s
    · subst hxs; rw [hadd.target_other z hz]; exact h6 x z
    · simp only [target]; rw [hcnt x hx hxs, hadd.start, h2]
  · intro x hx hu
    rw [(hex x).mp hx] at hu ⊢
    rw [hadd.total]; exact h7 hu
  · intro x hx hu
    rw [(hex x).mp hx] at hu ⊢
    rw [hadd.total]; exact h8 hu
  · by_cases hy0 : y = 0
    · refine ⟨c'.fst.start, by simp [target, hy0], hadd.wf.start_lt, fun h => absurd hy0 h⟩
    · obtain ⟨t, g1, g2, g3, g4⟩ := hadd.next hy0
      exact ⟨t, g1, g2, fun _ => ⟨g3, g4⟩⟩
  · intro hy0 x d hx _ hd
    rw [(hex x).mp hx] at hd ⊢
    rw [← h6] at hd
    have hD := hdest hy0 d hd
    have hlt := htlt d hd
    have hod : ord' d = ord d := hadd.sameOrd d hlt
    refine ⟨by rw [h1] at hlt; omega, ?_, ?_⟩
    · intro hn
      rw [hod] at hn
      obtain ⟨e1, e2, e3, e4⟩ := hD.new hn
      simp only [h1] at e1 e2 e3 e4
      exact ⟨_, e1, Nat.le_refl _, by omega, e3, e4⟩
    · intro hn
      rw [hod] at hn
      exact (hD.old hn).1
  · intro _ x b hx hnone
    rw [(hex x).mp hx, hy] at hnone; cases hnone
  · intro t g1 g2
    have hy0 : y ≠ 0 := by
      intro hy0
      have := hend hy0
      omega
    refine ⟨s, (hex s).mpr rfl, ?_⟩
    obtain ⟨d0, hd0⟩ : ∃ d, target f1 s y = some d := by
      rw [← h5] at hy
      simp only [count, stateCount, if_neg hy0] at hy
      simp only [target, if_neg hy0]
      cases hst : f1.states[s]? with
      | none => rw [hst] at hy; cases hy
      | some st =>
        rw [hst] at hy
        simp only [Option.bind_some, Option.map_eq_some_iff] at hy ⊢
        obtain ⟨a, ha, _⟩ := hy
        exact ⟨_, a, ha, rfl⟩
    have hD := hdest hy0 d0 hd0
    by_cases hn : ord d0 = ord s ∧ (ord s : Int) + 1 < c.maxOrder
    · obtain ⟨e1, e2, e3, e4⟩ := hD.new hn
      simp only [h1] at e1 e2 e3 e4
      have : t = c.fst.states.length := by omega
      subst this
      exact ⟨e1, hn.2, e4⟩
    · have := (hD.old hn).2
      simp only [h1] at this
      omega

/-- incrementing the backoff arc of `s`, observing `y` at its backoff, then giving it a count at `s` -/
theorem Observed.of_lower {c c2 c' : Core A.C} {ord ord2 ord' : Nat → Nat} {V u s b : Nat} {y : Int}
    {f1 : Fst A.C} (wf : WF A Ok c.fst ord c.maxOrder V u)
    (hy : count A c.fst s y = none) (hb : backoff c.fst s = some b)
    (h1 : f1.states.length = c.fst.states.length) (h2 : f1.start = c.fst.start)
    (h3 : ∀ x, x ≠ s → f1.states[x]? = c.fst.states[x]?)
    (h4 : ∀ x, backoff f1 x = backoff c.fst x)
    (h5 : ∀ x y, count A f1 x y = count A c.fst x y)
    (h6 : ∀ x y, target f1 x y = target c.fst x y)
    (h7 : Unseen A c.fst s → storedTotal f1 s = storedTotal c.fst s)
    (h8 : ¬ Unseen A c.fst s → storedTotal f1 s = (storedTotal c.fst s).map fun w => A.nls w A.one)
    (hobs : Observed A Ok { c with fst := f1 } c2 ord ord2 V u b y)
    (hadd : Added A Ok c2 c' ord2 ord' V u s y A.one)
    (hend : y = 0 → c'.fst.states.length = c2.fst.states.length) {d : Nat} (hd : target c2.fst b y = some d)
    (hdest : y ≠ 0 → Dest c2 c' ord2 ord' s y d) :
    Observed A Ok c c' ord ord' V u s y := by
  have hw := wf.of_backoff hb
  have hs := hw.1
  have hex : ∀ x, Excluded A c.fst y s x ↔ x = s ∨ Excluded A c.fst y b x := fun x => excluded_iff_none hy hb
  have hexf : ∀ x, Excluded A f1 y b x ↔ Excluded A c.fst y b x := fun x =>
    ⟨fun h => h.congr (fun x => (h5 x y).symm) (fun x => (h4 x).symm),
      fun h => h.congr (fun x => h5 x y) h4⟩
  have hnots : ∀ x, Excluded A c.fst y b x → x ≠ s := by
    rintro x hx rfl
    have := hx.ord_le wf
    omega
  have hexlt : ∀ x, Excluded A c.fst y b x → x < c.fst.states.length := by
    intro x hx
    rcases hx.isBelow with rfl | h
    · exact hw.2.2.1
    · exact (h.ord_lt wf).2
  have hlen1 : c.fst.states.length ≤ c2.fst.states.length := by
    have := hobs.len; simp only [h1] at this; exact this
  have hsout : c2.fst.states[s]? = f1.states[s]? := by
    refine hobs.outside s (by simp only [h1]; exact hs) ?_
    intro h
    exact hnots s ((hexf s).mp h) rfl
  have hun : ∀ x, Unseen A f1 x ↔ Unseen A c.fst x := fun x =>
    ⟨fun h z => by rw [← h5]; exact h z, fun h z => by rw [h5]; exact h z⟩
  have hstep2 : ∀ x, x < c.fst.states.length → x ≠ s → c'.fst.states[x]? = c2.fst.states[x]? :=
    fun x hx hxs => hadd.others x (by omega) hxs
  have htgt : ∀ x, x < c.fst.states.length → x ≠ s → target c'.fst x y = target c2.fst x y := by
    intro x hx hxs
    simp only [target]; rw [hstep2 x hx hxs, hadd.start]
  have hled : ∀ x e, Excluded A c.fst y b x → Led { c with fst := f1 } c2 ord ord2 x y e → Led c c' ord ord' x y e := by
    intro x e hx h
    have ho := hadd.sameOrd e h.lt
    have hl := hadd.len
    have hlt := h.lt
    refine ⟨by omega, ?_, ?_⟩
    · intro hn
      rw [ho] at hn
      obtain ⟨t, e1, e2, e3, e4, e5⟩ := h.new hn
      simp only [h1] at e2
      exact ⟨t, by rw [htgt x (hexlt x hx) (hnots x hx)]; exact e1, e2, by omega,
        by rw [hadd.sameBackoff t e3]; exact e4, by rw [hadd.sameOrd t e3]; exact e5⟩
    · intro hn
      rw [ho] at hn
      rw [htgt x (hexlt x hx) (hnots x hx)]; exact h.old hn
  refine ⟨hadd.maxOrder.trans hobs.maxOrder, (hadd.start.trans hobs.start).trans h2, by have := hadd.len; omega,
    ?_, ?_, hadd.orders hobs.orders, hadd.wf, ?_, ?_, ?_, ?_, ?_, ?_, ?_, ?_,
    fun h => by rw [hend h, hobs.ended h, h1], ?_, ?_, ?_⟩
  · intro x hx
    rw [hadd.sameBackoff x (by omega), hobs.sameBackoff x (by simp only [h1]; exact hx)]; exact h4 x
  · intro x hx
    rw [hadd.sameOrd x (by omega)]; exact hobs.sameOrd x (by simp only [h1]; exact hx)
  · intro x g1 g2
    by_cases hx2 : x < c2.fst.states.length
    · have hxs : x ≠ s := by omega
      have hx' := hadd.others x hx2 hxs
      have := hobs.fresh x (by simp only [h1]; exact g1) hx2
      refine ⟨fun z => ?_, ?_⟩
      · rw [← this.1 z]; simp only [count]; rw [hx']
      · rw [← this.2]; simp only [storedTotal]; rw [hx']
    · exact hadd.fresh x (by omega) g2
  · intro x hx hne
    rw [hex x] at hne
    have hxs : x ≠ s := fun e => hne (.inl e)
    rw [hstep2 x hx hxs, hobs.outside x (by simp only [h1]; exact hx) (fun h => hne (.inr ((hexf x).mp h)))]
    exact h3 x hxs
  · intro x hx
    rcases (hex x).mp hx with rfl | hx
    · rw [hadd.count_self, hy]; rfl
    · have := hobs.count_self x ((hexf x).mpr hx)
      simp only [h5] at this
      rw [← this]; simp only [count]; rw [hstep2 x (hexlt x hx) (hnots x hx)]
  · intro x z hx hz
    by_cases hxs : x = s
    · subst hxs
      rw [hadd.count_other z hz, hobs.count_other x z (by simp only [h1]; exact hx) hz]; exact h5 x z
    · have := hobs.count_other x z (by simp only [h1]; exact hx) hz
      simp only [h5] at this
      rw [← this]; simp only [count]; rw [hstep2 x hx hxs]
  · intro x z hx hz
    by_cases hxs : x = s
    · subst hxs
      rw [hadd.target_other z hz, hobs.target_other x z (by simp only [h1]; exact hx) hz]; exact h6 x z
    · have := hobs.target_other x z (by simp only [h1]; exact hx) hz
      simp only [h6] at this
      rw [← this]; simp only [target]; rw [hstep2 x hx hxs, hadd.start]
  · intro x hx hu
    rcases (hex x).mp hx with rfl | hx
    · rw [hadd.total]
      rw [← h7 hu]; simp only [storedTotal]; rw [hsout]
    · have := hobs.total_unseen x ((hexf x).mpr hx) ((hun x).mpr hu)
      have h' : storedTotal f1 x = storedTotal c.fst x := by
        simp only [storedTotal]; rw [h3 x (hnots x hx)]
      rw [← h']
      simp only at this
      rw [← this]; simp only [storedTotal]; rw [hstep2 x (hexlt x hx) (hnots x hx)]
  · intro x hx hu
    rcases (hex x).mp hx with rfl | hx
    · rw [hadd.total]
      rw [← h8 hu]; simp only [storedTotal]; rw [hsout]
    · have := hobs.total_seen x ((hexf x).mpr hx) (fun h => hu ((hun x).mp h))
      have h' : storedTotal f1 x = storedTotal c.fst x := by
        simp only [storedTotal]; rw [h3 x (hnots x hx)]
      rw [← h']
      simp only at this
      rw [← this]; simp only [storedTotal]; rw [hstep2 x (hexlt x hx) (hnots x hx)]
  · have hos : ord2 s = ord s := hobs.sameOrd s (by simp only [h1]; exact hs)
    have hmo := hobs.maxOrder
    by_cases hy0 : y = 0
    · exact ⟨c'.fst.start, by simp [target, hy0], hadd.wf.start_lt, fun h => absurd hy0 h⟩
    · obtain ⟨t, g1, g2, g3, g4⟩ := hadd.next hy0
      rw [hos] at g3 g4
      refine ⟨t, g1, g2, fun _ => ⟨g3, fun h => g4 ?_⟩⟩
      rw [hmo]; exact h
  · intro hy0 x e hx hsome he
    rcases (hex x).mp hx with rfl | hx
    · rw [hy] at hsome; cases hsome
    · rw [← h6] at he
      exact hled x e hx (hobs.found hy0 x e ((hexf x).mpr hx) (by simp only [h5]; exact hsome) he)
  · intro hy0 x b' hx hnone hb'
    rcases (hex x).mp hx with rfl | hx
    · rw [hb] at hb'
      injection hb' with hb'
      subst hb'
      have hD := hdest hy0
      have hdl := hobs.wf.target_lt hd
      have hod := hadd.sameOrd d hdl
      have hos : ord2 x = ord x := hobs.sameOrd x (by simp only [h1]; exact hs)
      have hmo : c2.maxOrder = c.maxOrder := hobs.maxOrder
      have hlen2 := hadd.len
      refine ⟨d, ?_, by omega, ?_, ?_⟩
      · rw [htgt b hw.2.2.1 (hnots b .here)]; exact hd
      · intro hn
        rw [hod, ← hos, ← hmo] at hn
        obtain ⟨e1, e2, e3, e4⟩ := hD.new hn
        rw [hos] at e4
        exact ⟨_, e1, hlen1, by omega, e3, e4⟩
      · intro hn
        rw [hod, ← hos, ← hmo] at hn
        exact (hD.old hn).1
    · obtain ⟨e, k1, k2⟩ := hobs.lower hy0 x b' ((hexf x).mpr hx) (by simp only [h5]; exact hnone) (by
        simp only [h4]; exact hb')
      have hwb := wf.of_backoff hb'
      have hxle := hx.ord_le wf
      have hbs : b' ≠ s := by
        rintro rfl
        omega
      exact ⟨e, by rw [htgt b' hwb.2.2.1 hbs]; exact k1, hled x e hx k2⟩
  · intro t g1 g2
    by_cases ht2 : t < c2.fst.states.length
    · obtain ⟨x, k1, k2, k3, k4⟩ := hobs.grown t (by simp only [h1]; exact g1) ht2
      have hx := (hexf x).mp k1
      exact ⟨x, (hex x).mpr (.inr hx), by rw [htgt x (hexlt x hx) (hnots x hx)]; exact k2, k3,
        by rw [hadd.sameOrd t ht2]; exact k4⟩
    · have hy0 : y ≠ 0 := by
        intro hy0
        have := hend hy0
        omega
      have hD := hdest hy0
      have hos : ord2 s = ord s := hobs.sameOrd s (by simp only [h1]; exact hs)
      have hmo : c2.maxOrder = c.maxOrder := hobs.maxOrder
      by_cases hn : ord2 d = ord2 s ∧ (ord2 s : Int) + 1 < c2.maxOrder
      · obtain ⟨e1, e2, e3, e4⟩ := hD.new hn
        have : t = c2.fst.states.length := by omega
        subst this
        refine ⟨s, (hex s).mpr (.inl rfl), e1, ?_, by rw [e4, hos]⟩
        rw [← hos, ← hmo]; exact hn.2
      · have := (hD.old hn).2
        omega

theorem verified_eq {α : Type} {v : List α} {y : Nat} {a : α} (h : v[y]? = some a) :
    verified v (y : Int) = pure a := by
  unfold verified
  have := lt_of_getElem?_eq_some h
  rw [if_neg (by omega), if_neg (by omega), toNat_coe, h]; rfl

/-- `GetDestinationState` of a symbol counted at the state. -/
theorem getDestination_ok {m : Model A} (L : CountLaws A Ok m.beta) {ord : Nat → Nat} {V u : Nat}
    (wf : WF A Ok m.core.fst ord m.core.maxOrder V u) {D : Nat → Prop} (h : CacheOk m D) {s : Nat}
    (hs : s < m.core.fst.states.length) (hD : ∀ x, D x → ¬ (x = s ∨ Below m.core.fst x s))
    {y : Int} (hy0 : 0 ≤ y) (hyV : y ≤ V) {o t : Nat} (ho : Origin A m.core.fst y s o)
    (ht : target m.core.fst o y = some t) :
    ∃ m', getDestinationState (s : Int) y m = .ok (some (t : Int), m') ∧ Same m m' ∧ CacheOk m' D := by
  obtain ⟨e, m', h1, h2, h3, h4, _⟩ := ensure_ok L wf h hs hD
  obtain ⟨k, rfl⟩ := Int.eq_ofNat_of_zero_le hy0
  have hl := Ideal.lookup L wf (y := k) (by omega) ho h4 hs
  rw [ht] at hl
  refine ⟨m', ?_, h2, h3⟩
  unfold getDestinationState
  rw [PM.bind_some h1]
  exact PM.reads_eq (verified_eq hl.2)

/-- The state left by `UpdateModel` on every model with automaton `c`: new automaton `c'`, answer `t`. -/
def UpdateSpec (A : Arith) (alpha beta : A.D) (n : Nat) (s o y : Int) (c c' : Core A.C) (s' : Nat)
    (t : Int) : Prop :=
  ∀ (m : Model A) (D : Nat → Prop), m.core = c → m.alpha = alpha → m.beta = beta → CacheOk m D →
    (∀ x, D x → ¬ (x = s' ∨ Below c.fst x s')) →
    ∃ m', updateModel n s o y m = .ok (some t, m') ∧ Params m m' ∧ m'.core = c' ∧ CacheOk m' D

/-- `UpdateModel` succeeds and does exactly one observation, which depends on the automaton only; the
cache stays up to date. -/
theorem updateModel_ok {alpha beta : A.D} (L : CountLaws A Ok beta) {V u : Nat} {y : Int} (hy0 : 0 ≤ y)
    (hyV : y ≤ V) : ∀ n (c : Core A.C) (ord : Nat → Nat) (s o : Nat),
      WF A Ok c.fst ord c.maxOrder V u → OrdersOk c ord →
      s < c.fst.states.length → ord s + 1 ≤ n → Origin A c.fst y s o →
      ∃ (t : Nat) (c' : Core A.C) (ord' : Nat → Nat), Observed A Ok c c' ord ord' V u s y ∧
        target c'.fst s y = some t ∧ UpdateSpec A alpha beta n (s : Int) (o : Int) y c c' s (t : Int) := by
  intro n
  induction n with
  | zero => intro c ord s o _ _ _ hn; omega
  | succ n ih =>
    intro c ord s o wf ho hs hn horig
    obtain ⟨f1, g0, gwf, g1, g2, g3, g4, g5, g6, g7, g8⟩ := incrementBackoffArc_spec wf hs
    have hch1 : Changed A c { c with fst := f1 } ord ord s := incr_changed g1 g2 g3 g4
    have hnself : ¬ Below c.fst s s := fun hb => by have := (hb.ord_lt wf).1; omega
    -- it is enough to reach an observed core with only `s` out of date
    suffices hmid : ∃ (c2 : Core A.C) (ord2 : Nat → Nat), Observed A Ok c c2 ord ord2 V u s y ∧
        ∀ (m : Model A) (D : Nat → Prop), m.core = { c with fst := f1 } → m.alpha = alpha → m.beta = beta →
          CacheOk m (fun x => D x ∨ x = s) → (∀ x, D x → ¬ (x = s ∨ Below c.fst x s)) →
          ∃ m2, updateCounts (updateModel n (idOf (backoff c.fst s)) (o : Int) y) (s : Int) (o : Int) y m =
              .ok (some (), m2) ∧ Params m m2 ∧ m2.core = c2 ∧ CacheOk m2 (fun x => D x ∨ x = s) by
      obtain ⟨c2, ord2, e3, hrun⟩ := hmid
      have hs2 : s < c2.fst.states.length := by have := e3.len; omega
      have hbelow : ∀ x, Below c2.fst x s ↔ Below c.fst x s :=
        fun x => below_same wf e3.sameBackoff hs
      obtain ⟨t, ht, _⟩ := e3.next
      have hcself := e3.count_self s .here
      refine ⟨t, c2, ord2, e3, ht, ?_⟩
      intro m D hcore ha hbeta h hD
      subst hcore
      have hc1 := h.setCore wf hch1
      obtain ⟨m2, e1, e2, ecore, e4⟩ := hrun (m.setCore { m.core with fst := f1 }) D rfl ha hbeta hc1 hD
      subst ecore
      unfold updateModel
      rw [PM.reads_bind g0]
      simp only [PM.modify_bind]
      rw [PM.bind_some e1]
      have L2 : CountLaws A Ok m2.beta := by
        rw [e2.beta]; simp only [Model.setCore]; rw [hbeta]; exact L
      obtain ⟨m3, k1, k2, k3⟩ := updateCache_ok L2 e3.wf e4 hs2 (by
        intro x hx hb
        rw [hbelow] at hb
        rcases hx with hx | rfl
        · exact hD x hx (.inr hb)
        · exact hnself hb)
      rw [PM.bind_some k1]
      have L3 : CountLaws A Ok m3.beta := by rw [k2.beta]; exact L2
      have k3' : CacheOk m3 D := k3.mono (fun x hx => by
        rcases hx with ⟨hx | hx, hne⟩
        · exact hx
        · exact absurd hx hne)
      have wf3 : WF A Ok m3.core.fst ord2 m3.core.maxOrder V u := by rw [k2.core]; exact e3.wf
      obtain ⟨m4, l1, l2, l3⟩ := getDestination_ok L3 wf3 k3' (by rw [k2.core]; exact hs2) (s := s) (by
        rw [k2.core]
        intro x hx hb
        rw [hbelow] at hb
        exact hD x hx hb) hy0 hyV (o := s) (t := t)
        (by rw [k2.core]; exact .here (by rw [hcself]; rfl)) (by rw [k2.core]; exact ht)
      have hcore : m4.core = m2.core := l2.core.trans k2.core
      exact ⟨m4, l1, (setCore_params m _).trans (e2.trans (k2.params.trans l2.params)), hcore, l3⟩
    unfold updateCounts
    cases horig with
    | here hc =>
      obtain ⟨w, hw⟩ := Option.isSome_iff_exists.mp hc
      obtain ⟨c2, ord2, k1, k2, kend, kdest⟩ := updateHighestFound_spec (c := { c with fst := f1 }) L gwf
        (ho.setFst g1) (s := s) (by simp only [g1]; exact hs) (y := y) (w := w) (by
          simp only [g5]; exact hw)
      refine ⟨c2, ord2, Observed.of_found hs hw g1 g2 g3 g4 g5 g6 g7 g8 ho (fun _ d hd => gwf.target_lt hd) k2 kend
        kdest, ?_⟩
      intro m D hcore _ _ h hD
      rw [if_pos rfl, PM.reads_bind (m := m) (a := c2) (by rw [hcore]; exact k1)]
      refine ⟨_, rfl, ⟨rfl, rfl, rfl, rfl, rfl⟩, rfl, ?_⟩
      have := h.setCore (m := m) (by rw [hcore]; exact gwf) (by rw [hcore]; exact k2.toChanged)
      exact this.mono (fun x hx => by rcases hx with hx | hx; exact hx; exact .inr hx)
    | lower hc hb hlow =>
      rename_i b
      have hw := wf.of_backoff hb
      have hob := hlow.lt wf hw.2.2.1
      have hne : ¬ (o : Int) = (s : Int) := by
        intro e
        have : o = s := by omega
        subst this
        omega
      have hb1 : ∀ x, Below f1 x b → Below c.fst x b := fun x hx =>
        (hch1.below wf hw.2.2.1).mp hx
      obtain ⟨t, c2, ord2, k3, k4, krun⟩ := ih { c with fst := f1 } ord b o gwf (ho.setFst g1) (by
          simp only [g1]; exact hw.2.2.1) (by omega) (hlow.congr (fun x => g5 x y) g4)
      have hlen2 : c.fst.states.length ≤ c2.fst.states.length := by
        have := k3.len; simp only [g1] at this; exact this
      have hsnot : ¬ Excluded A f1 y b s := by
        intro hx
        have := hx.ord_le gwf
        omega
      have hstate : c2.fst.states[s]? = f1.states[s]? :=
        k3.outside s (by simp only [g1]; exact hs) hsnot
      obtain ⟨t', ht', htl, htord⟩ := k3.next
      rw [k4] at ht'
      injection ht' with ht'
      subst ht'
      have hords : ord2 s = ord s := k3.sameOrd s (by simp only [g1]; exact hs)
      have hmo : c2.maxOrder = c.maxOrder := k3.maxOrder
      obtain ⟨c3, ord3, j1, j2, jend, jdest⟩ := updateNotFound_spec (c := c2) L k3.wf k3.orders (s := s)
        (by omega) hw.2.1 hy0 hyV (by
          have := g5 s y
          rw [hc] at this
          rw [← this]; simp only [count]; rw [hstate]) (t := t) htl (by
          intro hy
          have := (htord hy).2 (by
            have := wf.ord_lt hs
            simp only; omega)
          rw [this, hords]; omega)
      refine ⟨c3, ord3, Observed.of_lower wf hc hb g1 g2 g3 g4 g5 g6 g7 g8 k3 j2 jend k4 jdest, ?_⟩
      intro m D hcore ha hbeta h hD
      obtain ⟨m2, k1, k2, kcore, k5⟩ := krun m (fun x => D x ∨ x = s) hcore ha hbeta h (by
          intro x hx hxb
          have hxb' : x = b ∨ Below c.fst x b := by
            rcases hxb with hxb | hxb
            · exact .inl hxb
            · exact .inr (hb1 x hxb)
          have hxs : Below c.fst x s := (below_iff hb).mpr hxb'
          rcases hx with hx | rfl
          · exact hD x hx (.inr hxs)
          · exact hnself hxs)
      rw [if_neg hne, hb, show idOf (some b) = (b : Int) from rfl, PM.bind_some k1]
      subst kcore
      rw [PM.reads_bind (m := m2) (a := c3) j1]
      refine ⟨_, rfl, ⟨k2.alpha, k2.beta, k2.static, k2.symbols, k2.maxCache⟩, rfl, ?_⟩
      have := k5.setCore k3.wf j2.toChanged
      exact this.mono (fun x hx => by rcases hx with hx | hx; exact hx; exact .inr hx)

end Mozolm.Ppm
