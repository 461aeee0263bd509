import Verif.Ppm.Alike
import Verif.Ppm.Read

/-!
# The PPM model in two arithmetics

The control flow of the PPM model does not depend on the numbers: the same source and the same calls make the same
automaton, up to the weights, and the same caches, up to the costs, in any two arithmetics for which counts are neither
infinite nor below `beta`.
-/

namespace Mozolm.Ppm
variable {A B : Arith}

/-- Corresponding weights in two arithmetics: counts of characters, and totals on backoff arcs. -/
structure Twin (A B : Arith) (beta : A.D) (beta' : B.D) where
  W : A.C → B.C → Prop
  T : A.C → B.C → Prop
  one : W A.one B.one
  succ : ∀ c c', W c c' → W (A.nls c A.one) (B.nls c' B.one)
  first : W (A.nls A.inf A.one) (B.nls B.inf B.one)
  tone : T A.one B.one
  tsucc : ∀ c c', T c c' → T (A.nls c A.one) (B.nls c' B.one)
  finite : ∀ c c', W c c' → A.isInf c = false ∧ B.isInf c' = false
  zero : A.isInf A.inf = true ∧ B.isInf B.inf = true
  above : ∀ c c', W c c' → A.ge c (A.cost beta) = false ∧ B.ge c' (B.cost beta') = false

section
variable {beta : A.D} {beta' : B.D} (R : Twin A B beta beta')

/-- corresponding arcs -/
structure ArcTwin (a : Arc A.C) (b : Arc B.C) : Prop where
  label : b.label = a.label
  next : b.next = a.next
  count : a.label ≠ 0 → R.W a.weight b.weight
  total : a.label = 0 → R.T a.weight b.weight

/-- corresponding states -/
structure StateTwin (s : FState A.C) (t : FState B.C) : Prop where
  final : R.W s.final t.final ∨ (s.final = A.inf ∧ t.final = B.inf)
  arcs : Pointwise (ArcTwin R) s.arcs t.arcs

/-- corresponding automata -/
structure FstTwin (f : Fst A.C) (g : Fst B.C) : Prop where
  start : g.start = f.start
  states : Pointwise (StateTwin R) f.states g.states

/-- corresponding automata with orders -/
structure CoreTwin (c : Core A.C) (d : Core B.C) : Prop where
  fst : FstTwin R c.fst d.fst
  orders : d.orders = c.orders
  maxOrder : d.maxOrder = c.maxOrder

/-- corresponding vectors: the same but for the costs -/
structure DataTwin {C C' : Type} (d : Data C) (e : Data C') : Prop where
  origin : e.origin = d.origin
  dest : e.dest = d.dest
  costs : e.costs.length = d.costs.length

/-- corresponding entries of the cache -/
structure EntryTwin {C C' : Type} (d : Entry C) (e : Entry C') : Prop where
  state : e.state = d.state
  accessed : e.accessed = d.accessed
  updated : e.updated = d.updated
  data : DataTwin d.data e.data

/-- corresponding models -/
structure ModelTwin (m : Model A) (n : Model B) : Prop where
  core : CoreTwin R m.core n.core
  beta : m.beta = beta
  beta' : n.beta = beta'
  static : n.static = m.static
  symbols : n.symbols = m.symbols
  maxCache : n.maxCache = m.maxCache
  counter : n.counter = m.counter
  index : n.index = m.index
  cache : Pointwise EntryTwin m.cache n.cache

/-- related optional values -/
inductive OptTwin {α γ : Type} (Q : α → γ → Prop) : Option α → Option γ → Prop
  | none : OptTwin Q none none
  | some {a b} : Q a b → OptTwin Q (some a) (some b)
end

/-! ## Lists -/

theorem Pointwise.opt {α γ : Type} {Q : α → γ → Prop} {l : List α} {l' : List γ} (h : Pointwise Q l l') :
    ∀ i : Nat, OptTwin Q l[i]? l'[i]? := by
  induction h with
  | nil => intro i; simpa using OptTwin.none
  | cons r _ ih =>
    intro i
    cases i with
    | zero => simpa using OptTwin.some r
    | succ i => simpa using ih i

theorem Pointwise.set {α γ : Type} {Q : α → γ → Prop} {l : List α} {l' : List γ} (h : Pointwise Q l l') {a : α} {b : γ} (hab : Q a b) :
    ∀ i : Nat, Pointwise Q (l.set i a) (l'.set i b) := by
  induction h with
  | nil => intro i; exact .nil
  | cons r h ih =>
    intro i
    cases i with
    | zero => exact .cons hab h
    | succ i => exact .cons r (ih i)

theorem Pointwise.append {α γ : Type} {Q : α → γ → Prop} {l : List α} {l' : List γ} (h : Pointwise Q l l') {k : List α} {k' : List γ}
    (h' : Pointwise Q k k') : Pointwise Q (l ++ k) (l' ++ k') := by
  induction h with
  | nil => exact h'
  | cons r _ ih => exact .cons r ih

section
variable {beta : A.D} {beta' : B.D} {R : Twin A B beta beta'}

theorem StateTwin.isInf {s : FState A.C} {t : FState B.C} (h : StateTwin R s t) : B.isInf t.final = A.isInf s.final := by
  rcases h.final with h | ⟨h1, h2⟩
  · have := R.finite _ _ h; rw [this.1, this.2]
  · rw [h1, h2, R.zero.1, R.zero.2]

theorem FstTwin.length {f : Fst A.C} {g : Fst B.C} (h : FstTwin R f g) : g.states.length = f.states.length :=
  h.states.length_eq.symm

theorem FstTwin.state? {f : Fst A.C} {g : Fst B.C} (h : FstTwin R f g) (s : Int) : OptTwin (StateTwin R) (f.state? s) (g.state? s) := by
  unfold Fst.state?
  by_cases hs : s < 0
  · rw [if_pos hs, if_pos hs]; exact .none
  · rw [if_neg hs, if_neg hs]; exact Pointwise.opt h.states _

theorem FstTwin.set {f : Fst A.C} {g : Fst B.C} (h : FstTwin R f g) (s : Int) {st : FState A.C} {st' : FState B.C} (hs : StateTwin R st st') :
    FstTwin R (setState f s st) (setState g s st') := ⟨h.start, Pointwise.set h.states hs _⟩

theorem FstTwin.backoff {f : Fst A.C} {g : Fst B.C} (h : FstTwin R f g) (s : Int) : getBackoffState g s = getBackoffState f s := by
  unfold getBackoffState
  have := h.state? s
  generalize f.state? s = x at this ⊢
  generalize g.state? s = y at this ⊢
  cases this with
  | none => rfl
  | @some st st' hs =>
    have ha := hs.arcs
    obtain ⟨fi, as⟩ := st
    obtain ⟨fi', as'⟩ := st'
    simp only at ha ⊢
    cases ha with
    | nil => rfl
    | cons h1 _ => simp only [h1.label, h1.next]

theorem FstTwin.noObs {f : Fst A.C} {g : Fst B.C} (h : FstTwin R f g) (s : Int) : noObservations B g s = noObservations A f s := by
  unfold noObservations
  have := h.state? s
  generalize f.state? s = x at this ⊢
  generalize g.state? s = y at this ⊢
  cases this with
  | none => rfl
  | @some st st' hs =>
    have ha := hs.arcs
    have hi := hs.isInf
    obtain ⟨fi, as⟩ := st
    obtain ⟨fi', as'⟩ := st'
    simp only at ha hi ⊢
    have hl := ha.length_eq
    cases ha with
    | nil => rfl
    | cons h1 _ => simp only [h1.label, hi, hl]

theorem incrementBackoffArc_twin {f : Fst A.C} {g : Fst B.C} (h : FstTwin R f g) (s : Int) :
    Agree (fun a b => FstTwin R a.1 b.1 ∧ a.2 = b.2) (incrementBackoffArc A f s) (incrementBackoffArc B g s) := by
  unfold incrementBackoffArc
  rw [h.noObs s]
  refine Agree.eq_bind fun no => ?_
  have := h.state? s
  generalize f.state? s = x at this ⊢
  generalize g.state? s = y at this ⊢
  cases this with
  | none => exact .fault _
  | @some st st' hs =>
    have ha := hs.arcs
    obtain ⟨fi, as⟩ := st
    obtain ⟨fi', as'⟩ := st'
    simp only at ha ⊢
    cases ha with
    | nil => exact .fault _
    | @cons a b as bs h1 h2 =>
      simp only [h1.label]
      by_cases h0 : a.label = 0
      · rw [if_pos h0, if_pos h0]
        cases no with
        | true => exact .ok ⟨h, by rw [h1.next]⟩
        | false =>
          refine .ok ⟨h.set s ⟨hs.final, .cons ⟨rfl, h1.next, fun hh => absurd h0 hh, fun _ => R.tsucc _ _ (h1.total h0)⟩ h2⟩, by rw [h1.next]⟩
      · rw [if_neg h0, if_neg h0]
        exact .ok ⟨h, rfl⟩

/-! ## Vectors -/

theorem updateIndexProb_twin {c : A.C} {c' : B.C} (h : R.W c c') (dn lo : A.C) (dn' lo' : B.C) (u : Bool) :
    (∃ p, updateIndexProb A c (A.cost beta) dn lo u = some p) ∧ ∃ p, updateIndexProb B c' (B.cost beta') dn' lo' u = some p := by
  unfold updateIndexProb
  have := R.above _ _ h
  rw [this.1, this.2]
  cases u <;> exact ⟨⟨_, rfl⟩, ⟨_, rfl⟩⟩

theorem setEntry_twin {c : A.C} {c' : B.C} (h : R.W c c') {d : Data A.C} {d' : Data B.C} (hd : DataTwin d d') (dn : A.C) (dn' : B.C) (u : Bool)
    (s next : Int) (i : Nat) : Agree DataTwin (setEntry A beta dn u s next c i d) (setEntry B beta' dn' u s next c' i d') := by
  unfold setEntry
  rw [hd.origin, hd.dest]
  by_cases hi : i < d.origin.length ∧ i < d.dest.length
  · rw [if_pos hi, if_pos hi]
    by_cases hl : i < d.costs.length
    · obtain ⟨x, hx⟩ := exists_getElem?_of_lt hl
      obtain ⟨y, hy⟩ := exists_getElem?_of_lt (l := d'.costs) (i := i) (by rw [hd.costs]; exact hl)
      rw [hx, hy]
      obtain ⟨⟨p, hp⟩, q, hq⟩ := updateIndexProb_twin h dn x dn' y u
      simp only [hp, hq]
      exact .ok ⟨rfl, rfl, by simp [hd.costs]⟩
    · rw [List.getElem?_eq_none (by omega), List.getElem?_eq_none (by rw [hd.costs]; omega)]
      exact .fault _
  · rw [if_neg hi, if_neg hi]; exact .fault _

theorem fillArcs_twin {as : List (Arc A.C)} {as' : List (Arc B.C)} (h : Pointwise (ArcTwin R) as as') (dn : A.C) (dn' : B.C) (u : Bool) (s : Int) :
    ∀ {d : Data A.C} {d' : Data B.C}, DataTwin d d' → Agree DataTwin (fillArcs A beta dn u s as d) (fillArcs B beta' dn' u s as' d') := by
  induction h with
  | nil => intro d d' hd; exact .ok hd
  | @cons a b as bs h1 _ ih =>
    intro d d' hd
    unfold fillArcs
    rw [h1.label]
    by_cases hl : a.label > 0
    · rw [if_pos hl, if_pos hl, hd.origin]
      by_cases hl2 : a.label ≥ (d.origin.length : Int)
      · rw [if_pos hl2, if_pos hl2]; exact .fail
      · rw [if_neg hl2, if_neg hl2, h1.next]
        exact (setEntry_twin (h1.count (by omega)) hd dn dn' u s _ _).bind fun x y hxy => ih hxy
    · rw [if_neg hl, if_neg hl]; exact ih hd

theorem finalEntry_twin {f : Fst A.C} {g : Fst B.C} (h : FstTwin R f g) {st : FState A.C} {st' : FState B.C} (hs : StateTwin R st st')
    {d : Data A.C} {d' : Data B.C} (hd : DataTwin d d') (dn : A.C) (dn' : B.C) (s bo : Int) :
    Agree DataTwin (finalEntry A f beta dn s bo st d) (finalEntry B g beta' dn' s bo st' d') := by
  unfold finalEntry
  rw [hs.isInf]
  by_cases hi : A.isInf st.final = true
  · rw [if_pos hi, if_pos hi]
    by_cases hb : bo < 0
    · rw [if_pos hb, if_pos hb]; exact .fail
    · rw [if_neg hb, if_neg hb]; exact .ok hd
  · rw [if_neg hi, if_neg hi, h.start]
    rcases hs.final with hw | ⟨h1, _⟩
    · exact setEntry_twin hw hd dn dn' _ s _ 0
    · rw [h1, R.zero.1] at hi; exact absurd rfl hi

theorem updateStatesAndProbs_twin {f : Fst A.C} {g : Fst B.C} (h : FstTwin R f g) {st : FState A.C} {st' : FState B.C} (hs : StateTwin R st st')
    {d : Data A.C} {d' : Data B.C} (hd : DataTwin d d') (dn : A.C) (dn' : B.C) (s bo : Int) :
    Agree DataTwin (updateStatesAndProbs A f beta dn s bo st d) (updateStatesAndProbs B g beta' dn' s bo st' d') := by
  unfold updateStatesAndProbs
  refine (finalEntry_twin h hs hd dn dn' s bo).bind fun d1 d1' h1 => ?_
  refine (fillArcs_twin hs.arcs dn dn' _ s h1).bind fun d2 d2' h2 => ?_
  unfold Scores.softmaxRenormalize
  have hl := h2.costs
  obtain ⟨o, t, cs, n⟩ := d2
  obtain ⟨o', t', cs', n'⟩ := d2'
  simp only at hl ⊢
  match cs, cs', hl with
  | [], [], _ => exact .fault _
  | c :: cs, c' :: cs', hl => exact .ok ⟨h2.origin, h2.dest, by simpa using hl⟩

theorem initData_twin {st : FState A.C} {st' : FState B.C} (hs : StateTwin R st st') {d : Data A.C} {d' : Data B.C} (hd : DataTwin d d')
    (al be : A.D) (al' be' : B.D) (dn : A.C) (dn' : B.C) (bo : Int) :
    DataTwin (initData A al be dn bo st d) (initData B al' be' dn' bo st' d') := by
  unfold initData
  by_cases hb : bo ≥ 0
  · rw [if_pos hb, if_pos hb]
    exact ⟨hd.origin, hd.dest, by simp [hd.costs]⟩
  · rw [if_neg hb, if_neg hb]
    have := hs.arcs.length_eq
    exact ⟨by simp [this], by simp [this], by simp [this]⟩

theorem stateData_twin {f : Fst A.C} {g : Fst B.C} (h : FstTwin R f g) {d : Data A.C} {d' : Data B.C} (hd : DataTwin d d')
    (al : A.D) (al' : B.D) (s bo : Int) : Agree DataTwin (stateData A f al beta s bo d) (stateData B g al' beta' s bo d') := by
  unfold stateData
  rw [h.noObs s]
  refine Agree.eq_bind fun no => ?_
  cases no with
  | true => exact .ok hd
  | false =>
    simp only [Bool.false_eq_true, if_false]
    have := h.state? s
    generalize f.state? s = x at this ⊢
    generalize g.state? s = y at this ⊢
    cases this with
    | none => exact .fault _
    | @some st st' hs => exact updateStatesAndProbs_twin h hs (initData_twin hs hd _ _ _ _ _ _ bo) _ _ s bo

/-! ## Lock step -/

/-- The same kind of result with related values, leaving corresponding models. -/
inductive Twins {α γ : Type} (R : Twin A B beta beta') (Q : α → γ → Prop) : Except Fault (Option α × Model A) →
    Except Fault (Option γ × Model B) → Prop
  | error (e : Fault) : Twins R Q (.error e) (.error e)
  | fail {m : Model A} {n : Model B} : ModelTwin R m n → Twins R Q (.ok (none, m)) (.ok (none, n))
  | ok {m : Model A} {n : Model B} {b : α} {c : γ} : Q b c → ModelTwin R m n → Twins R Q (.ok (some b, m)) (.ok (some c, n))

/-- Two computations that do the same on corresponding models. -/
def Match {α γ : Type} (R : Twin A B beta beta') (Q : α → γ → Prop) (x : PM A α) (y : PM B γ) : Prop :=
  ∀ (m : Model A) (n : Model B), ModelTwin R m n → Twins R Q (x m) (y n)

theorem Match.pure {α γ : Type} {Q : α → γ → Prop} {b : α} {c : γ} (h : Q b c) : Match R Q (Pure.pure b) (Pure.pure c) :=
  fun _ _ hm => .ok h hm

theorem Match.fail {α γ : Type} {Q : α → γ → Prop} : Match R Q PM.fail PM.fail := fun _ _ hm => .fail hm

theorem Match.bind {α γ α' γ' : Type} {Q : α → γ → Prop} {Q' : α' → γ' → Prop} {x : PM A α} {y : PM B γ}
    {f : α → PM A α'} {g : γ → PM B γ'} (h : Match R Q x y) (h' : ∀ b c, Q b c → Match R Q' (f b) (g c)) :
    Match R Q' (x >>= f) (y >>= g) := by
  intro m n hm
  show Twins R Q' (match x m with
      | .error e => .error e
      | .ok (none, m') => .ok (none, m')
      | .ok (some a, m') => f a m') (match y n with
      | .error e => .error e
      | .ok (none, m') => .ok (none, m')
      | .ok (some a, m') => g a m')
  have := h m n hm
  generalize x m = r1 at this ⊢
  generalize y n = r2 at this ⊢
  cases this with
  | error e => exact .error e
  | fail h1 => exact .fail h1
  | ok h1 h2 => exact h' _ _ h1 _ _ h2

theorem Match.seq {α α' γ' : Type} {Q : α' → γ' → Prop} {x : PM A α} {y : PM B α}
    {f : α → PM A α'} {g : α → PM B γ'} (h : Match R Eq x y) (h' : ∀ b, Match R Q (f b) (g b)) :
    Match R Q (x >>= f) (y >>= g) := h.bind fun b c e => by subst e; exact h' b

theorem Match.reads {α γ : Type} {Q : α → γ → Prop} {f : Model A → Res α} {g : Model B → Res γ}
    (h : ∀ m n, ModelTwin R m n → Agree Q (f m) (g n)) : Match R Q (PM.reads f) (PM.reads g) := by
  intro m n hm
  have := h m n hm
  unfold PM.reads
  generalize f m = r1 at this ⊢
  generalize g n = r2 at this ⊢
  cases this with
  | fault e => exact .error e
  | fail => exact .fail hm
  | ok h1 => exact .ok h1 hm

theorem Match.same {α : Type} {f : Model A → Res α} {g : Model B → Res α}
    (h : ∀ m n, ModelTwin R m n → g n = f m) : Match R Eq (PM.reads f) (PM.reads g) :=
  Match.reads fun m n hm => Agree.of_eq (h m n hm).symm

theorem Match.modify {f : Model A → Model A} {g : Model B → Model B} (h : ∀ m n, ModelTwin R m n → ModelTwin R (f m) (g n)) :
    Match R Eq (PM.modify f) (PM.modify g) := fun m n hm => .ok rfl (h m n hm)

theorem indexOf_twin {m : Model A} {n : Model B} (h : ModelTwin R m n) (s : Int) : indexOf n s = indexOf m s := by
  unfold indexOf; rw [h.index]

theorem entryAt_twin {m : Model A} {n : Model B} (h : ModelTwin R m n) (i : Int) : Agree EntryTwin (entryAt m i) (entryAt n i) := by
  unfold entryAt
  by_cases hi : i < 0
  · rw [if_pos hi, if_pos hi]; exact .fault _
  · rw [if_neg hi, if_neg hi]
    have := Pointwise.opt h.cache i.toNat
    generalize m.cache[i.toNat]? = x at this ⊢
    generalize n.cache[i.toNat]? = y at this ⊢
    cases this with
    | none => exact .fault _
    | some he => exact .ok he

theorem oldestFrom_twin {C C' : Type} {l : List (Entry C)} {l' : List (Entry C')} (h : Pointwise EntryTwin l l') :
    ∀ (i best : Nat) (oldest : Int), oldestFrom i best oldest l' = oldestFrom i best oldest l := by
  induction h with
  | nil => intro _ _ _; rfl
  | cons h1 _ ih =>
    intro i best oldest
    unfold oldestFrom
    rw [h1.accessed, ih, ih]

theorem findOldest_twin {C C' : Type} {l : List (Entry C)} {l' : List (Entry C')} (h : Pointwise EntryTwin l l') :
    findOldest l' = findOldest l := by
  cases h with
  | nil => rfl
  | cons h1 h2 =>
    simp only [findOldest]
    rw [oldestFrom_twin h2, h1.accessed]

theorem newEntry_twin (s : Int) : EntryTwin (Entry.new A s) (Entry.new B s) := ⟨rfl, rfl, rfl, rfl, rfl, rfl⟩

theorem getNewCacheIndex_twin (s : Int) : Match R Eq (getNewCacheIndex s) (getNewCacheIndex s) := by
  intro m n hm
  unfold getNewCacheIndex
  have hl : n.cache.length = m.cache.length := hm.cache.length_eq.symm
  rw [hl, hm.maxCache, hm.index]
  by_cases hl : (m.cache.length : Int) < m.maxCache
  · rw [if_pos hl, if_pos hl]
    exact .ok rfl { hm with maxCache := rfl, index := rfl, cache := Pointwise.append hm.cache (.cons (newEntry_twin s) .nil) }
  · rw [if_neg hl, if_neg hl, findOldest_twin hm.cache]
    match findOldest m.cache with
    | .error e => exact .error e
    | .ok none => exact .fail hm
    | .ok (some i) =>
      have := Pointwise.opt hm.cache i
      simp only
      generalize m.cache[i]? = x at this ⊢
      generalize n.cache[i]? = y at this ⊢
      cases this with
      | none => exact .error _
      | @some old old' ho =>
        simp only [ho.state, indexOf_twin hm]
        match indexOf m old.state with
        | .error e => exact .error e
        | .ok none => exact .fail hm
        | .ok (some j) =>
          simp only
          by_cases hj : j ≠ (i : Int)
          · rw [if_pos hj, if_pos hj]; exact .fail hm
          · rw [if_neg hj, if_neg hj]
            exact .ok rfl { hm with maxCache := rfl, index := rfl, cache := Pointwise.set hm.cache (newEntry_twin s) i }

theorem store_twin (s : Int) {d : Data A.C} {d' : Data B.C} (hd : DataTwin d d') : Match R Eq (store s d) (store s d') := by
  unfold store
  refine (Match.same fun m n hm => indexOf_twin hm s).seq fun i => ?_
  refine Match.seq ?_ fun _ => ?_
  · unfold ensureIndex
    by_cases hi : i < 0
    · rw [if_pos hi, if_pos hi]; exact getNewCacheIndex_twin s
    · rw [if_neg hi, if_neg hi]; exact Match.pure rfl
  refine (Match.same fun m n hm => indexOf_twin hm s).seq fun j => ?_
  refine (Match.reads fun m n hm => entryAt_twin hm j).bind fun e e' he => ?_
  refine Match.modify fun m n hm => ?_
  exact { hm with
    counter := by show n.counter + 1 = m.counter + 1; rw [hm.counter]
    cache := Pointwise.set hm.cache (a := { e with accessed := m.counter, updated := m.counter, data := d })
      (b := { e' with accessed := n.counter, updated := n.counter, data := d' }) ⟨he.state, hm.counter, hm.counter, hd⟩ _ }

/-- `EnsureCacheAtState` in lock step -/
def EnsureMatch (R : Twin A B beta beta') (ensure : Int → PM A (Entry A.C)) (ensure' : Int → PM B (Entry B.C)) : Prop :=
  ∀ s, Match R EntryTwin (ensure s) (ensure' s)

theorem backoffData_twin {ensure : Int → PM A (Entry A.C)} {ensure' : Int → PM B (Entry B.C)} (h : EnsureMatch R ensure ensure') (bo : Int) :
    Match R DataTwin (backoffData ensure bo) (backoffData ensure' bo) := by
  unfold backoffData
  by_cases hb : bo ≥ 0
  · rw [if_pos hb, if_pos hb]
    exact (h bo).bind fun e e' he => Match.pure he.data
  · rw [if_neg hb, if_neg hb]; exact Match.pure ⟨rfl, rfl, rfl⟩

theorem updateCacheAtStateWith_twin {ensure : Int → PM A (Entry A.C)} {ensure' : Int → PM B (Entry B.C)} (h : EnsureMatch R ensure ensure')
    (s : Int) : Match R Eq (updateCacheAtStateWith ensure s) (updateCacheAtStateWith ensure' s) := by
  unfold updateCacheAtStateWith
  refine (Match.same fun m n hm => by rw [hm.core.fst.length]).seq fun n => ?_
  by_cases h1 : s < 0
  · rw [if_pos h1, if_pos h1]; exact Match.fail
  rw [if_neg h1, if_neg h1]
  by_cases h2 : s ≥ (n : Int)
  · rw [if_pos h2, if_pos h2]; exact Match.fail
  rw [if_neg h2, if_neg h2]
  refine (Match.same fun m n hm => hm.core.fst.backoff s).seq fun bo => ?_
  refine (backoffData_twin h bo).bind fun bd bd' hbd => ?_
  refine Match.bind (Match.reads fun m n hm => ?_) fun d d' hd => store_twin s hd
  rw [hm.beta, hm.beta']
  exact stateData_twin hm.core.fst hbd _ _ s bo

theorem newer_twin {m : Model A} {n : Model B} (h : ModelTwin R m n) (t i : Int) : newer n t i = newer m t i := by
  unfold newer
  by_cases hi : i ≥ 0
  · rw [if_pos hi, if_pos hi]
    exact ((entryAt_twin h i).bind fun e e' he => Agree.of_eq (by rw [he.updated])).eq.symm
  · rw [if_neg hi, if_neg hi]

theorem lowerLoop_twin {m : Model A} {n : Model B} (h : ModelTwin R m n) (t : Int) :
    ∀ (k : Nat) (b : Int), lowerLoop n t k b = lowerLoop m t k b
  | 0, b => rfl
  | k + 1, b => by
    unfold lowerLoop
    by_cases hb : b < 0
    · rw [if_pos hb, if_pos hb]
    rw [if_neg hb, if_neg hb, indexOf_twin h]
    refine (Agree.eq_bind fun i => ?_).eq
    rw [newer_twin h]
    refine Agree.eq_bind fun hit => Agree.of_eq ?_
    cases hit with
    | true => rfl
    | false =>
      simp only [Bool.false_eq_true, if_false]
      rw [h.core.fst.backoff b]
      exact (Agree.eq_bind fun b' => Agree.of_eq (lowerLoop_twin h t k b')).eq

theorem lowerOrder_twin {m : Model A} {n : Model B} (h : ModelTwin R m n) (k : Nat) (s : Int) :
    lowerOrderCacheUpdated k n s = lowerOrderCacheUpdated k m s := by
  unfold lowerOrderCacheUpdated
  rw [indexOf_twin h]
  refine (Agree.eq_bind fun i => Agree.of_eq ?_).eq
  by_cases hi : i < 0
  · rw [if_pos hi, if_pos hi]
  rw [if_neg hi, if_neg hi]
  refine ((entryAt_twin h i).bind fun e e' he => ?_).eq.symm
  rw [h.core.fst.backoff s]
  refine Agree.eq_bind fun b => Agree.of_eq ?_
  rw [lowerLoop_twin h, he.updated]

theorem ensureCache_twin : ∀ k, EnsureMatch R (ensureCache k) (ensureCache k)
  | 0, s => fun m n hm => .error _
  | k + 1, s => by
    unfold ensureCache
    refine (Match.same fun m n hm => lowerOrder_twin hm k s).seq fun stale => ?_
    refine Match.seq ?_ fun _ => ?_
    · cases stale with
      | true => exact updateCacheAtStateWith_twin (ensureCache_twin k) s
      | false => exact Match.pure rfl
    refine (Match.same fun m n hm => indexOf_twin hm s).seq fun i => ?_
    refine (Match.same fun m n hm => by rw [hm.cache.length_eq]).seq fun size => ?_
    by_cases h1 : i < 0
    · rw [if_pos h1, if_pos h1]; exact Match.fail
    rw [if_neg h1, if_neg h1]
    by_cases h2 : i ≥ (size : Int)
    · rw [if_pos h2, if_pos h2]; exact Match.fail
    rw [if_neg h2, if_neg h2]
    refine (Match.reads fun m n hm => entryAt_twin hm i).bind fun e e' he => ?_
    rw [he.state]
    by_cases h3 : e.state ≠ s
    · rw [if_pos h3, if_pos h3]; exact Match.fail
    rw [if_neg h3, if_neg h3]
    cases stale with
    | true => exact Match.pure he
    | false =>
      simp only [Bool.false_eq_true, if_false]
      refine (Match.same fun m n hm => by rw [hm.counter]).seq fun c => ?_
      refine (Match.modify fun m n hm => ?_).seq fun _ => Match.pure ⟨rfl, rfl, he.updated, he.data⟩
      exact { hm with
        counter := by show n.counter + 1 = m.counter + 1; rw [hm.counter]
        cache := Pointwise.set hm.cache (a := { e with accessed := c }) (b := { e' with state := e.state, accessed := c })
          ⟨rfl, rfl, he.updated, he.data⟩ _ }

theorem fuel_twin {m : Model A} {n : Model B} (h : ModelTwin R m n) : n.fuel = m.fuel := by
  unfold Model.fuel; rw [h.core.maxOrder]

theorem ensureCacheAtState_twin : EnsureMatch R ensureCacheAtState ensureCacheAtState := by
  intro s m n hm
  unfold ensureCacheAtState
  rw [fuel_twin hm]
  exact ensureCache_twin m.fuel s m n hm

theorem updateCacheAtState_twin (s : Int) : Match R Eq (updateCacheAtState s) (updateCacheAtState s) :=
  updateCacheAtStateWith_twin ensureCacheAtState_twin s

theorem verified_len {α γ : Type} {l : List α} {l' : List γ} (h : l'.length = l.length) (y : Int) :
    Agree (fun _ _ => True) (verified l y) (verified l' y) := by
  unfold verified
  rw [h]
  by_cases h1 : y < 0
  · rw [if_pos h1, if_pos h1]; exact .fail
  rw [if_neg h1, if_neg h1]
  by_cases h2 : y ≥ (l.length : Int)
  · rw [if_pos h2, if_pos h2]; exact .fail
  rw [if_neg h2, if_neg h2]
  obtain ⟨a, ha⟩ := exists_getElem?_of_lt (l := l) (i := y.toNat) (by omega)
  obtain ⟨b, hb⟩ := exists_getElem?_of_lt (l := l') (i := y.toNat) (by omega)
  rw [ha, hb]
  exact .ok trivial

theorem getNegLogProb_twin (s y : Int) : Match R (fun _ _ => True) (getNegLogProb s y) (getNegLogProb s y) :=
  (ensureCacheAtState_twin s).bind fun e e' he => Match.reads fun _ _ _ => verified_len he.data.costs y

theorem getArcOriginState_twin (s y : Int) : Match R Eq (getArcOriginState s y) (getArcOriginState s y) :=
  (ensureCacheAtState_twin s).bind fun e e' he => Match.same fun _ _ _ => by rw [he.data.origin]

theorem getDestinationState_twin (s y : Int) : Match R Eq (getDestinationState s y) (getDestinationState s y) :=
  (ensureCacheAtState_twin s).bind fun e e' he => Match.same fun _ _ _ => by rw [he.data.dest]

/-! ## Updates -/

theorem needsNewState_twin {c : Core A.C} {c' : Core B.C} (h : CoreTwin R c c') (curr next : Int) :
    needsNewState c' curr next = needsNewState c curr next := by
  unfold needsNewState orderOf
  rw [h.orders, h.maxOrder]

theorem addNewState_twin {c : Core A.C} {c' : Core B.C} (h : CoreTwin R c c') (bo : Nat) :
    Agree (fun a b => CoreTwin R a.1 b.1 ∧ a.2 = b.2) (addNewState A c bo) (addNewState B c' bo) := by
  unfold addNewState
  simp only
  rw [h.fst.length, h.orders]
  by_cases hn : c.fst.states.length ≠ c.orders.length
  · rw [if_pos hn, if_pos hn]; exact .fail
  rw [if_neg hn, if_neg hn]
  have : orderOf c' (bo : Int) = orderOf c (bo : Int) := by unfold orderOf; rw [h.orders]
  rw [this]
  refine Agree.eq_bind fun ob => .ok ⟨⟨⟨h.fst.start, ?_⟩, by simp only [h.orders], h.maxOrder⟩, rfl⟩
  exact Pointwise.append h.fst.states (.cons ⟨.inr ⟨rfl, rfl⟩, .cons ⟨rfl, rfl, fun hh => absurd rfl hh, fun _ => R.tone⟩ .nil⟩ .nil)

/-- corresponding splits of arcs -/
inductive SplitTwin (R : Twin A B beta beta') (y : Int) : Option (List (Arc A.C) × Arc A.C × List (Arc A.C)) →
    Option (List (Arc B.C) × Arc B.C × List (Arc B.C)) → Prop
  | none : SplitTwin R y none none
  | some {p p' a a' q q'} : Pointwise (ArcTwin R) p p' → ArcTwin R a a' → a.label = y → Pointwise (ArcTwin R) q q' →
      SplitTwin R y (some (p, a, q)) (some (p', a', q'))

theorem splitArc_twin {l : List (Arc A.C)} {l' : List (Arc B.C)} (h : Pointwise (ArcTwin R) l l') (y : Int) :
    SplitTwin R y (splitArc y l) (splitArc y l') := by
  induction h with
  | nil => exact .none
  | @cons a b l l' h1 h2 ih =>
    unfold splitArc
    rw [h1.label]
    by_cases hl : a.label = y
    · rw [if_pos hl, if_pos hl]; exact .some .nil h1 hl h2
    · rw [if_neg hl, if_neg hl]
      generalize splitArc y l = x at ih ⊢
      generalize splitArc y l' = z at ih ⊢
      cases ih with
      | none => exact .none
      | some k1 k2 k3 k4 => exact .some (.cons h1 k1) k2 k3 k4

theorem finalSucc_twin {st : FState A.C} {st' : FState B.C} (h : StateTwin R st st') :
    R.W (A.nls st.final A.one) (B.nls st'.final B.one) := by
  rcases h.final with h | ⟨h1, h2⟩
  · exact R.succ _ _ h
  · rw [h1, h2]; exact R.first

theorem updateHighestFound_twin {c : Core A.C} {c' : Core B.C} (h : CoreTwin R c c') (curr sym : Int) :
    Agree (CoreTwin R) (updateHighestFound A c curr sym) (updateHighestFound B c' curr sym) := by
  unfold updateHighestFound
  have := h.fst.state? curr
  generalize c.fst.state? curr = x at this ⊢
  generalize c'.fst.state? curr = y at this ⊢
  cases this with
  | none => exact .fault _
  | @some st st' hl =>
    simp only
    by_cases hy : sym = 0
    · rw [if_pos hy, if_pos hy]
      exact .ok ⟨h.fst.set curr ⟨.inl (finalSucc_twin hl), hl.arcs⟩, h.orders, h.maxOrder⟩
    rw [if_neg hy, if_neg hy]
    have hsp := splitArc_twin hl.arcs sym
    generalize splitArc sym st.arcs = x at hsp ⊢
    generalize splitArc sym st'.arcs = y at hsp ⊢
    cases hsp with
    | none => exact .fail
    | @some p p' a a' q q' k1 k2 k3 k4 =>
      simp only
      rw [k2.next, needsNewState_twin h]
      refine Agree.eq_bind fun needs => ?_
      have hc : ∀ nx : Nat, CoreTwin R
          { c with fst := setState c.fst curr { st with arcs := p ++ ({ a with weight := A.nls a.weight A.one, next := nx } : Arc A.C) :: q } }
          { c' with fst := setState c'.fst curr { st' with arcs := p' ++ ({ a' with weight := B.nls a'.weight B.one, next := nx } : Arc B.C) :: q' } } :=
        fun nx => ⟨h.fst.set curr ⟨hl.final, Pointwise.append k1 (.cons ⟨k2.label, rfl, fun h0 => R.succ _ _ (k2.count h0),
          fun h0 => absurd (k3.symm.trans h0) hy⟩ k4)⟩, h.orders, h.maxOrder⟩
      cases needs with
      | true =>
        simp only [if_true, h.orders]
        have := hc c.orders.length
        rw [h.orders] at this
        exact (addNewState_twin this _).bind fun a b hab => .ok hab.1
      | false => exact .ok (hc _)

theorem updateNotFound_twin {c : Core A.C} {c' : Core B.C} (h : CoreTwin R c c') (curr dest sym : Int) :
    Agree (CoreTwin R) (updateNotFound A c curr dest sym) (updateNotFound B c' curr dest sym) := by
  unfold updateNotFound
  by_cases hy : sym = 0
  · rw [if_pos hy, if_pos hy]
    have := h.fst.state? curr
    generalize c.fst.state? curr = x at this ⊢
    generalize c'.fst.state? curr = y at this ⊢
    cases this with
    | none => exact .fault _
    | @some st st' hl => exact .ok ⟨h.fst.set curr ⟨.inl R.one, hl.arcs⟩, h.orders, h.maxOrder⟩
  rw [if_neg hy, if_neg hy, needsNewState_twin h]
  refine Agree.eq_bind fun needs => ?_
  refine Agree.bind (R := fun a b => CoreTwin R a.1 b.1 ∧ a.2 = b.2) ?_ fun a b hab => ?_
  · unfold newDestination
    cases needs with
    | true => exact addNewState_twin h _
    | false => exact .ok ⟨h, rfl⟩
  obtain ⟨c1, n1⟩ := a
  obtain ⟨c2, n2⟩ := b
  obtain ⟨k1, k2⟩ := hab
  simp only at k1 k2 ⊢
  subst k2
  have := k1.fst.state? curr
  generalize c1.fst.state? curr = x at this ⊢
  generalize c2.fst.state? curr = y at this ⊢
  cases this with
  | none => exact .fault _
  | @some st st' hl =>
    exact .ok ⟨k1.fst.set curr ⟨hl.final, Pointwise.append hl.arcs (.cons ⟨rfl, rfl, fun _ => R.one, fun h0 => absurd h0 hy⟩ .nil)⟩,
      k1.orders, k1.maxOrder⟩

theorem setCore_twin {c : Core A.C} {c' : Core B.C} (h : CoreTwin R c c') {m : Model A} {n : Model B} (hm : ModelTwin R m n) :
    ModelTwin R (m.setCore c) (n.setCore c') :=
  { hm with
    core := h
    index := by unfold Model.setCore; simp only [h.fst.length, hm.index] }

theorem core_twin {g : Core A.C → Res (Core A.C)} {g' : Core B.C → Res (Core B.C)}
    (h : ∀ c c', CoreTwin R c c' → Agree (CoreTwin R) (g c) (g' c')) :
    Match R Eq (PM.reads (fun m : Model A => g m.core) >>= fun c => PM.modify fun m => m.setCore c)
      (PM.reads (fun m : Model B => g' m.core) >>= fun c => PM.modify fun m => m.setCore c) :=
  Match.bind (Match.reads fun m n hm => h _ _ hm.core) fun _ _ h => Match.modify fun _ _ hm => setCore_twin h hm

theorem updateCounts_twin {x : PM A Int} {y : PM B Int} (h : Match R Eq x y) (curr highest sym : Int) :
    Match R Eq (updateCounts x curr highest sym) (updateCounts y curr highest sym) := by
  unfold updateCounts
  by_cases he : highest = curr
  · rw [if_pos he, if_pos he]
    exact core_twin fun c c' h => updateHighestFound_twin h curr sym
  · rw [if_neg he, if_neg he]
    exact h.seq fun dest => core_twin fun c c' h => updateNotFound_twin h curr dest sym

theorem updateModel_twin : ∀ (k : Nat) (curr highest sym : Int), Match R Eq (updateModel k curr highest sym) (updateModel k curr highest sym)
  | 0, _, _, _ => fun _ _ _ => .error _
  | k + 1, curr, highest, sym => by
    unfold updateModel
    refine Match.bind (Match.reads fun m n hm => incrementBackoffArc_twin hm.core.fst curr) fun a b hab => ?_
    obtain ⟨f, r⟩ := a
    obtain ⟨g, r'⟩ := b
    obtain ⟨k1, k2⟩ := hab
    simp only at k1 k2 ⊢
    subst k2
    refine (Match.modify fun m n hm => setCore_twin (c := { m.core with fst := f }) (c' := { n.core with fst := g })
      ⟨k1, hm.core.orders, hm.core.maxOrder⟩ hm).seq fun _ => ?_
    refine (updateCounts_twin (updateModel_twin k r highest sym) curr highest sym).seq fun _ => ?_
    refine (updateCacheAtState_twin curr).seq fun _ => ?_
    exact getDestinationState_twin curr sym

theorem observe_twin (curr highest sym : Int) : Match R Eq (observe curr highest sym) (observe curr highest sym) := by
  intro m n hm
  unfold observe
  rw [fuel_twin hm]
  exact updateModel_twin m.fuel curr highest sym m n hm

theorem whenM_twin {b : Bool} {x : PM A Unit} {y : PM B Unit} (h : Match R Eq x y) : Match R Eq (whenM b x) (whenM b y) := by
  cases b with
  | true => exact h
  | false => exact Match.pure rfl

theorem getNegLogProbsFrom_twin : ∀ (ys : List Int) (s : Int),
    Match R (fun l l' => l'.length = l.length) (getNegLogProbsFrom s ys) (getNegLogProbsFrom s ys)
  | [], s => Match.pure rfl
  | y :: ys, s => by
    unfold getNegLogProbsFrom
    refine (getNegLogProb_twin s y).bind fun c c' _ => ?_
    refine (Match.same fun m n hm => by rw [hm.static]).seq fun static => ?_
    refine (whenM_twin ?_).seq fun _ => ?_
    · refine (getArcOriginState_twin s y).seq fun o => ?_
      exact (observe_twin s o y).seq fun _ => Match.pure rfl
    refine (getDestinationState_twin s y).seq fun d => ?_
    exact (getNegLogProbsFrom_twin ys d).bind fun cs cs' h => Match.pure (by simp [h])

/-- Results of the public functions. -/
inductive Twins' {α γ : Type} (R : Twin A B beta beta') (Q : α → γ → Prop) : Except Fault (α × Model A) → Except Fault (γ × Model B) → Prop
  | error (e : Fault) : Twins' R Q (.error e) (.error e)
  | ok {m : Model A} {n : Model B} {a : α} {b : γ} : Q a b → ModelTwin R m n → Twins' R Q (.ok (a, m)) (.ok (b, n))

/-- A public function in lock step -/
def Match' {α γ : Type} (R : Twin A B beta beta') (Q : α → γ → Prop) (f : Model A → Except Fault (α × Model A))
    (g : Model B → Except Fault (γ × Model B)) : Prop := ∀ m n, ModelTwin R m n → Twins' R Q (f m) (g n)

theorem Match'.toMatch {α γ : Type} {Q : α → γ → Prop} {f : Model A → Except Fault (α × Model A)} {g : Model B → Except Fault (γ × Model B)}
    (h : Match' R Q f g) : Match R Q (PM.total f) (PM.total g) := by
  intro m n hm
  have := h m n hm
  unfold PM.total
  generalize f m = x at this ⊢
  generalize g n = y at this ⊢
  cases this with
  | error e => exact .error e
  | ok hq h => exact .ok hq h

theorem orElse_twin {α γ α' γ' : Type} {Q : α → γ → Prop} {Q' : α' → γ' → Prop} {x : PM A α} {y : PM B γ} {k : α → α'} {k' : γ → γ'}
    {n1 : Model A → Except Fault α'} {n2 : Model B → Except Fault γ'} (h : Match R Q x y) (hk : ∀ a b, Q a b → Q' (k a) (k' b))
    (hn : ∀ m n, ModelTwin R m n → (∃ e, n1 m = .error e ∧ n2 n = .error e) ∨ ∃ a b, n1 m = .ok a ∧ n2 n = .ok b ∧ Q' a b) :
    Match' R Q' (orElse x k n1) (orElse y k' n2) := by
  intro m n hm
  have := h m n hm
  unfold orElse
  generalize x m = r1 at this ⊢
  generalize y n = r2 at this ⊢
  cases this with
  | error e => exact .error e
  | ok hr h => exact .ok (hk _ _ hr) h
  | @fail m' n' h =>
    simp only
    rcases hn m' n' h with ⟨e, h1, h2⟩ | ⟨a, b, h1, h2, h3⟩
    · rw [h1, h2]; exact .error e
    · rw [h1, h2]; exact .ok h3 h

theorem unigramState_twin {m : Model A} {n : Model B} (h : ModelTwin R m n) : unigramState n = unigramState m := by
  unfold unigramState
  rw [h.core.fst.backoff, h.core.fst.start]

theorem unigram_or {m : Model A} {n : Model B} (h : ModelTwin R m n) :
    (∃ e, unigramState m = .error e ∧ unigramState n = .error e) ∨ ∃ a b, unigramState m = .ok a ∧ unigramState n = .ok b ∧ a = b := by
  rw [unigramState_twin h]
  cases unigramState m with
  | error e => exact .inl ⟨e, rfl, rfl⟩
  | ok a => exact .inr ⟨a, a, rfl, rfl, rfl⟩

theorem nextState_twin (encode : Int → Str) (s sym : Int) : Match' R Eq (nextState encode s sym) (nextState encode s sym) := by
  intro m n hm
  unfold nextState
  rw [hm.symbols]
  simp only
  by_cases h : m.symbols.findLabel (encode sym) > 0
  · rw [if_pos h, if_pos h]
    exact orElse_twin (getDestinationState_twin s _) (fun a b h => h) (fun m n => unigram_or) m n hm
  · rw [if_neg h, if_neg h]
    exact orElse_twin (Q := Eq) Match.fail (fun a b h => h) (fun m n => unigram_or) m n hm

/-- the same characters and as many probabilities -/
def ScoresTwin {D D' : Type} (r : LMScores D) (r' : LMScores D') : Prop := r'.symbols = r.symbols ∧ r'.probs.length = r.probs.length

theorem fillLMScores_twin {d : Data A.C} {d' : Data B.C} (h : DataTwin d d') (t : SymbolTable) :
    Agree ScoresTwin (fillLMScores t d) (fillLMScores t d') := by
  unfold fillLMScores
  have hl := h.costs
  obtain ⟨o, de, cs, nm⟩ := d
  obtain ⟨o', de', cs', nm'⟩ := d'
  simp only at hl ⊢
  match cs, cs', hl with
  | [], [], _ => exact .fault _
  | c :: cs, c' :: cs', hl =>
    simp only [List.length_cons, Nat.add_right_cancel_iff] at hl
    exact .ok ⟨by simp only [hl], by simp [hl]⟩

theorem extractLMScores_twin (s : Int) : Match' R (OptTwin ScoresTwin) (extractLMScores s) (extractLMScores s) := by
  intro m n hm
  refine orElse_twin (x := (do
    let e ← ensureCacheAtState s
    PM.reads fun m => fillLMScores m.symbols e.data)) (y := (do
    let e ← ensureCacheAtState s
    PM.reads fun m => fillLMScores m.symbols e.data)) (Q := ScoresTwin) ?_ (fun a b h => .some h) (fun _ _ _ => .inr ⟨_, _, rfl, rfl, .none⟩) m n hm
  refine (ensureCacheAtState_twin s).bind fun e e' he => Match.reads fun m n hm => ?_
  rw [hm.symbols]
  exact fillLMScores_twin he.data _

theorem symLMScore_twin (encode : Int → Str) (s sym : Int) :
    Match' R (fun _ _ => True) (symLMScore encode s sym) (symLMScore encode s sym) := by
  intro m n hm
  unfold symLMScore
  rw [hm.symbols]
  simp only
  generalize (if sym = 0 then (0 : Int) else m.symbols.findLabel (encode sym)) = idx
  by_cases h : idx ≥ 0
  · rw [if_pos h, if_pos h]
    exact orElse_twin (getNegLogProb_twin s _) (fun _ _ h => h) (fun _ _ _ => .inr ⟨_, _, rfl, rfl, trivial⟩) m n hm
  · rw [if_neg h, if_neg h]
    exact .ok trivial hm

theorem observeAgain_twin (s sym : Int) : ∀ k, Match R Eq (observeAgain s sym k) (observeAgain s sym k)
  | 0 => Match.pure rfl
  | k + 1 => by
    unfold observeAgain
    exact (observe_twin s s sym).seq fun _ => observeAgain_twin s sym k

theorem updateSymbol_twin (encode : Int → Str) (count s sym : Int) :
    Match R Eq (updateSymbol encode count s sym) (updateSymbol encode count s sym) := by
  unfold updateSymbol
  refine (Match.same fun m n hm => by rw [hm.symbols]).seq fun idx => ?_
  by_cases h : idx < 0
  · rw [if_pos h, if_pos h]
    exact Match.same fun m n hm => by rw [hm.core.fst.start]
  rw [if_neg h, if_neg h]
  refine (getArcOriginState_twin s idx).seq fun o => ?_
  refine (observe_twin s o idx).seq fun _ => ?_
  refine (observeAgain_twin s idx _).seq fun _ => ?_
  exact (nextState_twin encode s sym).toMatch

theorem updateSymbols_twin (encode : Int → Str) (count : Int) : ∀ (ys : List Int) (s : Int),
    Match R Eq (updateSymbols encode count s ys) (updateSymbols encode count s ys)
  | [], s => Match.pure rfl
  | y :: ys, s => by
    unfold updateSymbols
    exact (updateSymbol_twin encode count s y).seq fun t => updateSymbols_twin encode count ys t

theorem updateLMCounts_twin (encode : Int → Str) (s : Int) (ys : List Int) (count : Int) :
    Match' R Eq (updateLMCounts encode s ys count) (updateLMCounts encode s ys count) := by
  intro m n hm
  unfold updateLMCounts
  rw [hm.static]
  by_cases h : (m.static || decide (count ≤ 0)) = true
  · rw [if_pos h, if_pos h]; exact .ok rfl hm
  · rw [if_neg h, if_neg h]
    exact orElse_twin (updateSymbols_twin encode count ys s) (fun _ _ _ => rfl) (fun _ _ _ => .inr ⟨_, _, rfl, rfl, rfl⟩) m n hm

/-- Answers that agree but for the numbers in them. -/
inductive AnswerTwin : Answer A → Answer B → Prop
  | state (t : Int) : AnswerTwin (.state t) (.state t)
  | scores {r r'} : OptTwin ScoresTwin r r' → AnswerTwin (.scores r) (.scores r')
  | cost (c c') : AnswerTwin (.cost c) (.cost c')
  | ok (b : Bool) : AnswerTwin (.ok b) (.ok b)
  | costs {r r'} : OptTwin (fun l l' => l'.length = l.length) r r' → AnswerTwin (.costs r) (.costs r')

theorem wrap_twin {α γ α' γ' : Type} {Q : α → γ → Prop} {Q' : α' → γ' → Prop} {k : α → α'} {k' : γ → γ'}
    {f : Model A → Except Fault (α × Model A)} {g : Model B → Except Fault (γ × Model B)} (h : Match' R Q f g)
    (hk : ∀ a b, Q a b → Q' (k a) (k' b)) : Match' R Q' (wrap k f) (wrap k' g) := by
  intro m n hm
  have := h m n hm
  unfold wrap
  generalize f m = x at this ⊢
  generalize g n = y at this ⊢
  cases this with
  | error e => exact .error e
  | ok hq h => exact .ok (hk _ _ hq) h

theorem step_twin (encode : Int → Str) (op : Op) : Match' R AnswerTwin (step encode op) (step encode op) := by
  cases op with
  | next s sym => exact wrap_twin (nextState_twin encode s sym) fun a b h => by subst h; exact .state _
  | scores s => exact wrap_twin (extractLMScores_twin s) fun a b h => .scores h
  | score s sym => exact wrap_twin (symLMScore_twin encode s sym) fun a b _ => .cost a b
  | update s ys count => exact wrap_twin (updateLMCounts_twin encode s ys count) fun a b h => by subst h; exact .ok _
  | logProbs ys =>
    refine wrap_twin (Q := OptTwin (fun l l' => l'.length = l.length)) ?_ fun a b h => .costs h
    intro m n hm
    have h := getNegLogProbsFrom_twin (R := R) ys m.core.fst.start m n hm
    unfold getNegLogProbs
    rw [hm.core.fst.start]
    generalize getNegLogProbsFrom (m.core.fst.start : Int) ys m = x at h ⊢
    generalize getNegLogProbsFrom (m.core.fst.start : Int) ys n = y at h ⊢
    cases h with
    | error e => exact .error e
    | fail h => exact .ok .none h
    | ok hr h => exact .ok (.some hr) h

theorem Op.Valid.twin {m : Model A} {n : Model B} (hm : ModelTwin R m n) {op : Op} (h : op.Valid m) : op.Valid n := by
  cases op <;> simp only [Op.Valid] at h ⊢ <;> rw [hm.core.fst.length] <;> exact h

/-- The same calls in the other arithmetic. -/
theorem Run.twin {encode : Int → Str} {m m' : Model A} {tr : List (Op × Answer A)} (h : Run encode m tr m') : ∀ {n : Model B}, ModelTwin R m n →
    ∃ (tr' : List (Op × Answer B)) (n' : Model B), Run encode n tr' n' ∧ ModelTwin R m' n' ∧
      Pointwise (fun x y => y.1 = x.1 ∧ AnswerTwin x.2 y.2) tr tr' := by
  induction h with
  | nil => intro n hm; exact ⟨[], n, .nil, hm, .nil⟩
  | @cons m op a m1 tr m2 hv hs _ ih =>
    intro n hm
    have h1 := step_twin (R := R) encode op m n hm
    rw [hs] at h1
    match hy : step encode op n, h1 with
    | .ok (b, n1), h1 =>
      cases h1 with
      | ok hq hm1 =>
        obtain ⟨tr', n', k1, k2, k3⟩ := ih hm1
        exact ⟨(op, b) :: tr', n', .cons (hv.twin hm) hy k1, k2, .cons ⟨rfl, hq⟩ k3⟩

/-! ## Reading -/

theorem insertArc_twin {a : Arc A.C} {b : Arc B.C} (hab : ArcTwin R a b) {l : List (Arc A.C)} {l' : List (Arc B.C)}
    (h : Pointwise (ArcTwin R) l l') : Pointwise (ArcTwin R) (insertArc a l) (insertArc b l') := by
  induction h with
  | nil => exact .cons hab .nil
  | cons h1 h2 ih =>
    unfold insertArc
    rw [hab.label, h1.label]
    split
    · exact .cons hab (.cons h1 h2)
    · exact .cons h1 ih

theorem sortArcs_twin {l : List (Arc A.C)} {l' : List (Arc B.C)} (h : Pointwise (ArcTwin R) l l') :
    Pointwise (ArcTwin R) (sortArcs l) (sortArcs l') := by
  induction h with
  | nil => exact .nil
  | cons h1 _ ih => exact insertArc_twin h1 ih

theorem arcSort_twin {f : Fst A.C} {g : Fst B.C} (h : FstTwin R f g) : FstTwin R (arcSort f) (arcSort g) := by
  refine ⟨h.start, ?_⟩
  have := h.states
  unfold arcSort
  simp only
  generalize f.states = l at this ⊢
  generalize g.states = l' at this ⊢
  induction this with
  | nil => exact .nil
  | cons h1 _ ih => exact .cons ⟨h1.final, sortArcs_twin h1.arcs⟩ ih

theorem makeEmpty_twin : FstTwin R (makeEmpty A) (makeEmpty B) :=
  ⟨rfl, .cons ⟨.inr ⟨rfl, rfl⟩, .cons ⟨rfl, rfl, fun h => absurd rfl h, fun _ => R.tone⟩ .nil⟩ (.cons ⟨.inl R.one, .nil⟩ .nil)⟩

/-- corresponding automata with the same symbol table -/
def TableTwin (R : Twin A B beta beta') (r : Fst A.C × SymbolTable) (r' : Fst B.C × SymbolTable) : Prop := FstTwin R r.1 r'.1 ∧ r'.2 = r.2

theorem addUnigramArc_twin {f : Fst A.C} {g : Fst B.C} (h : FstTwin R f g) (u : Nat) {idx : Int} (h0 : idx ≠ 0) :
    Agree (FstTwin R) (addUnigramArc A f u idx) (addUnigramArc B g u idx) := by
  unfold addUnigramArc
  have := Pointwise.opt h.states u
  generalize f.states[u]? = x at this ⊢
  generalize g.states[u]? = y at this ⊢
  cases this with
  | none => exact .fault _
  | some hs => exact .ok (h.set _ ⟨hs.final, Pointwise.append hs.arcs (.cons ⟨rfl, rfl, fun _ => R.one, fun hh => absurd hh h0⟩ .nil)⟩)

theorem nextLabel_pos {t : SymbolTable} {k : Int} (h : (∃ e ∈ t, e.1 = k) ∧ 0 ≤ k) : 0 < nextLabel t := by
  obtain ⟨⟨e, he, hk⟩, h0⟩ := h
  induction t with
  | nil => cases he
  | cons a t ih =>
    unfold nextLabel
    rcases List.mem_cons.1 he with rfl | he
    · omega
    · have := ih he; omega

theorem addChars_twin (u : Nat) : ∀ (cs : List Str) {r : Fst A.C × SymbolTable} {r' : Fst B.C × SymbolTable}, TableTwin R r r' →
    (∃ e ∈ r.2, e.1 = 0) → Agree (fun a b => TableTwin R a b ∧ ∃ e ∈ a.2, e.1 = 0) (addChars A u cs r) (addChars B u cs r')
  | [], _, _, h, h0 => .ok ⟨h, h0⟩
  | c :: cs, (f, t), (g, t'), h, h0 => by
    obtain ⟨h1, h2⟩ := h
    simp only at h1 h2 h0
    subst h2
    unfold addChars
    by_cases hc : SymbolTable.findLabel t' c < 0
    · rw [if_pos hc, if_pos hc]
      have := nextLabel_pos ⟨h0, Int.le_refl 0⟩
      refine (addUnigramArc_twin h1 u (by omega)).bind fun a b hab => ?_
      refine addChars_twin u cs ⟨hab, rfl⟩ ?_
      obtain ⟨e, he, h0⟩ := h0
      exact ⟨e, List.mem_append_left _ he, h0⟩
    · rw [if_neg hc, if_neg hc]
      exact addChars_twin u cs ⟨h1, rfl⟩ h0

theorem addExtraCharacters_twin (l : List Str) {r : Fst A.C × SymbolTable} {r' : Fst B.C × SymbolTable} (h : TableTwin R r r')
    (h0 : ∃ e ∈ r.2, e.1 = 0) :
    Agree (fun a b => TableTwin R a b ∧ ∃ e ∈ a.2, e.1 = 0) (addExtraCharacters A l r) (addExtraCharacters B l r') := by
  unfold addExtraCharacters
  rw [h.1.start, h.1.backoff]
  refine Agree.eq_bind fun u => ?_
  by_cases hu : u < 0
  · rw [if_pos hu, if_pos hu]; exact .fail
  · rw [if_neg hu, if_neg hu]; exact addChars_twin _ l h h0

theorem addLines_twin : ∀ (ls : List (List Str)) {r : Fst A.C × SymbolTable} {r' : Fst B.C × SymbolTable}, TableTwin R r r' →
    (∃ e ∈ r.2, e.1 = 0) → Agree (TableTwin R) (addLines A ls r) (addLines B ls r')
  | [], _, _, h, _ => .ok h
  | l :: ls, r, r', h, h0 => by
    unfold addLines
    exact (addExtraCharacters_twin l h h0).bind fun a b hab => addLines_twin ls hab.1 hab.2

theorem calculateStateOrder_twin {f : Fst A.C} {g : Fst B.C} (h : FstTwin R f g) : ∀ (k : Nat) (orders : List Int) (s : Int),
    calculateStateOrder B g k orders s = calculateStateOrder A f k orders s
  | 0, _, _ => rfl
  | k + 1, orders, s => by
    unfold calculateStateOrder
    by_cases hs : s < 0
    · rw [if_pos hs, if_pos hs]
    rw [if_neg hs, if_neg hs]
    cases orders[s.toNat]? with
    | none => rfl
    | some o =>
      simp only
      by_cases ho : o ≥ 0
      · rw [if_pos ho, if_pos ho]
      rw [if_neg ho, if_neg ho, h.backoff]
      refine (Agree.eq_bind fun b => Agree.of_eq ?_).eq
      rw [calculateStateOrder_twin h k]

theorem stateOrdersLoop_twin {f : Fst A.C} {g : Fst B.C} (h : FstTwin R f g) (fuel : Nat) : ∀ (k s : Nat) (orders : List Int) (top : Int),
    stateOrdersLoop B g fuel k s orders top = stateOrdersLoop A f fuel k s orders top
  | 0, _, _, _ => rfl
  | k + 1, s, orders, top => by
    unfold stateOrdersLoop
    rw [calculateStateOrder_twin h]
    exact (Agree.eq_bind fun r => Agree.of_eq (stateOrdersLoop_twin h fuel k _ _ _)).eq

theorem calculateStateOrders_twin {f : Fst A.C} {g : Fst B.C} (h : FstTwin R f g) (mo : Int) (save : Bool) :
    Agree (CoreTwin R) (calculateStateOrders A f mo save) (calculateStateOrders B g mo save) := by
  unfold calculateStateOrders
  simp only
  rw [h.start, h.length]
  by_cases hs : f.start ≥ f.states.length
  · rw [if_pos hs, if_pos hs]; exact .fault _
  rw [if_neg hs, if_neg hs, h.backoff]
  refine Agree.eq_bind fun u => ?_
  by_cases hu : u < 0
  · rw [if_pos hu, if_pos hu]; exact .fail
  rw [if_neg hu, if_neg hu, stateOrdersLoop_twin h]
  exact Agree.eq_bind fun r => .ok ⟨h, rfl, rfl⟩

/-- corresponding sources; symbol tables of files have a label 0 -/
inductive SourceTwin (R : Twin A B beta beta') : Source A.C → Source B.C → Prop
  | fstFile {f : Fst A.C} {g : Fst B.C} {t : SymbolTable} : FstTwin R f g → (∃ e ∈ t, e.1 = 0) →
      SourceTwin R (.fstFile (some (f, t))) (.fstFile (some (g, t)))
  | text {f : Fst A.C} {g : Fst B.C} {t : SymbolTable} : FstTwin R f g → (∃ e ∈ t, e.1 = 0) →
      SourceTwin R (.text (some (f, t))) (.text (some (g, t)))
  | none : SourceTwin R .none .none

theorem readSource_twin {src : Source A.C} {src' : Source B.C} (h : SourceTwin R src src') (v : Bool) :
    Agree (fun a b => TableTwin R a b ∧ ∃ e ∈ a.2, e.1 = 0) (readSource A src v) (readSource B src' v) := by
  cases h with
  | fstFile h h0 => exact .ok ⟨⟨h, rfl⟩, h0⟩
  | text h h0 => exact .ok ⟨⟨h, rfl⟩, h0⟩
  | none =>
    unfold readSource
    cases v with
    | true => exact .ok ⟨⟨makeEmpty_twin, rfl⟩, _, List.mem_cons_self, rfl⟩
    | false => exact .fail

theorem readVocab_twin {src : Source A.C} {src' : Source B.C} (h : SourceTwin R src src') (v : Option (Option (List (List Str))))
    {r : Fst A.C × SymbolTable} {r' : Fst B.C × SymbolTable} (hr : TableTwin R r r') (h0 : ∃ e ∈ r.2, e.1 = 0) :
    Agree (TableTwin R) (readVocab A src v r) (readVocab B src' v r') := by
  match v with
  | none => exact .ok hr
  | some none => exact .fail
  | some (some []) => exact .fail
  | some (some (l :: ls)) =>
    refine (addLines_twin (l :: ls) hr h0).bind fun a b hab => .ok ⟨?_, hab.2⟩
    cases h with
    | fstFile => exact hab.1
    | text => exact hab.1
    | none => exact arcSort_twin hab.1

theorem read_twin {o : Options A.D} {o' : Options B.D} (h1 : o'.maxOrder = o.maxOrder) (h2 : o'.static = o.static) (h3 : o'.maxCache = o.maxCache)
    (h4 : (initParameters A o).beta = beta) (h5 : (initParameters B o').beta = beta')
    {src : Source A.C} {src' : Source B.C} (h : SourceTwin R src src') (v : Option (Option (List (List Str)))) :
    Agree (ModelTwin R) (read A o src v) (read B o' src' v) := by
  unfold read
  refine (readSource_twin h v.isSome).bind fun r r' hr => ?_
  refine (readVocab_twin h v hr.1 hr.2).bind fun r r' hr => ?_
  have e1 : (initParameters B o').maxOrder = (initParameters A o).maxOrder := by unfold initParameters; simp only [h1]
  have e2 : (initParameters B o').static = (initParameters A o).static := h2
  have e3 : (initParameters B o').maxCache = (initParameters A o).maxCache := by unfold initParameters; simp only [h1, h3]
  rw [e1, e2]
  refine (calculateStateOrders_twin hr.1 _ _).bind fun c c' hc => .ok ?_
  exact ⟨hc, h4, h5, rfl, hr.2, by simp only [e3, hc.maxOrder], rfl, by simp only [hc.fst.length], .nil⟩

end
end Mozolm.Ppm
