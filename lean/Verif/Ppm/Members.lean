import Verif.Ppm.Observe

/-! # The public functions of the PPM model keep its invariant -/

namespace Mozolm.Ppm
variable {A : Arith} {Ok : A.C → Prop}

/-- nothing is out of date -/
def None' : Nat → Prop := fun _ => False

/-- The invariant of a model. -/
structure Inv (A : Arith) (Ok : A.C → Prop) (m : Model A) (ord : Nat → Nat) (V u : Nat) : Prop where
  laws : CountLaws A Ok m.beta
  wf : WF A Ok m.core.fst ord m.core.maxOrder V u
  orders : m.static = false → OrdersOk m.core ord
  cache : CacheOk m None'
  labels : ∀ str, m.symbols.findLabel str ≤ V

/-- Everything but the cache. -/
structure Sig (A : Arith) where
  core : Core A.C
  alpha : A.D
  beta : A.D
  static : Bool
  symbols : SymbolTable

/-- Everything but the cache. -/
def Model.sig (m : Model A) : Sig A := ⟨m.core, m.alpha, m.beta, m.static, m.symbols⟩

theorem Same.sig {m m' : Model A} (h : Same m m') : m'.sig = m.sig := by
  unfold Model.sig; rw [h.core, h.alpha, h.beta, h.static, h.symbols]

theorem Params.sig {m m' : Model A} (h : Params m m') : m'.sig = { m.sig with core := m'.core } := by
  unfold Model.sig; rw [h.alpha, h.beta, h.static, h.symbols]

theorem Inv.same {m m' : Model A} {ord : Nat → Nat} {V u : Nat} (h : Inv A Ok m ord V u) (hs : Same m m')
    (hc : CacheOk m' None') : Inv A Ok m' ord V u :=
  ⟨by rw [hs.beta]; exact h.laws, by rw [hs.core]; exact h.wf, by rw [hs.static, hs.core]; exact h.orders, hc,
    by rw [hs.symbols]; exact h.labels⟩

/-- A query that answers `b` whatever the cache holds. -/
def Query {β : Type} (f : Model A → Except Fault (β × Model A)) (g : Sig A) (b : β) : Prop :=
  ∀ m : Model A, m.sig = g → CacheOk m None' → ∃ m', f m = .ok (b, m') ∧ Same m m' ∧ CacheOk m' None'

theorem sig_core {m : Model A} {g : Sig A} (h : m.sig = g) : m.core = g.core := by subst h; rfl
theorem sig_alpha {m : Model A} {g : Sig A} (h : m.sig = g) : m.alpha = g.alpha := by subst h; rfl
theorem sig_beta {m : Model A} {g : Sig A} (h : m.sig = g) : m.beta = g.beta := by subst h; rfl
theorem sig_static {m : Model A} {g : Sig A} (h : m.sig = g) : m.static = g.static := by subst h; rfl
theorem sig_symbols {m : Model A} {g : Sig A} (h : m.sig = g) : m.symbols = g.symbols := by subst h; rfl

section Queries
variable {g : Sig A} {ord : Nat → Nat} {V u : Nat}

/-- `EnsureCacheAtState` returns the vectors computed afresh. -/
theorem ensure_query (L : CountLaws A Ok g.beta) (wf : WF A Ok g.core.fst ord g.core.maxOrder V u) {s : Nat}
    (hs : s < g.core.fst.states.length) {d : Data A.C} (hd : Ideal A g.core.fst g.alpha g.beta s d) :
    ∀ m : Model A, m.sig = g → CacheOk m None' →
      ∃ e m', ensureCacheAtState (s : Int) m = .ok (some e, m') ∧ e.data = d ∧ Same m m' ∧ CacheOk m' None' := by
  intro m hm h
  subst hm
  obtain ⟨e, m', h1, h2, h3, h4, _⟩ := ensure_ok L wf h hs (fun x hx => hx.elim)
  exact ⟨e, m', h1, h4.unique hd, h2, h3⟩

theorem getDestination_query (L : CountLaws A Ok g.beta) (wf : WF A Ok g.core.fst ord g.core.maxOrder V u)
    {s : Nat} (hs : s < g.core.fst.states.length) {y : Int} (hy0 : 0 ≤ y) (hyV : y ≤ V) :
    ∃ o t, Origin A g.core.fst y s o ∧ target g.core.fst o y = some t ∧ t < g.core.fst.states.length ∧
      Query (getDestinationState (s : Int) y) g (some (t : Int)) := by
  obtain ⟨o, ho⟩ := wf.origin L hy0 hyV s hs
  have hol := ho.lt wf hs
  have : ∃ t, target g.core.fst o y = some t ∧ t < g.core.fst.states.length := by
    by_cases hy : y = 0
    · exact ⟨_, by simp only [target, if_pos hy], wf.start_lt⟩
    · obtain ⟨st, hst, ok⟩ := wf.exists_state hol.1
      have hc := hol.2.2
      rw [count_of hst] at hc
      simp only [stateCount, if_neg hy, Option.isSome_map] at hc
      obtain ⟨a, ha⟩ := Option.isSome_iff_exists.mp hc
      refine ⟨a.next, by simp [target, hy, hst, ha], ?_⟩
      have hl : a.label = y := by have := List.find?_some ha; simpa using this
      exact (ok.arcs a (List.mem_of_find?_eq_some ha) (by omega)).2.1
  obtain ⟨t, ht, htl⟩ := this
  refine ⟨o, t, ho, ht, htl, ?_⟩
  intro m hm h
  subst hm
  exact getDestination_ok L wf h hs (fun x hx => hx.elim) hy0 hyV ho ht

theorem getArcOrigin_query (L : CountLaws A Ok g.beta) (wf : WF A Ok g.core.fst ord g.core.maxOrder V u)
    {s : Nat} (hs : s < g.core.fst.states.length) {y : Int} (hy0 : 0 ≤ y) (hyV : y ≤ V) {o : Nat}
    (ho : Origin A g.core.fst y s o) : Query (getArcOriginState (s : Int) y) g (some (o : Int)) := by
  intro m hm h
  obtain ⟨d, hd, _⟩ := wf.ideal L g.alpha s hs
  obtain ⟨e, m', h1, h2, h3, h4⟩ := ensure_query L wf hs hd m hm h
  obtain ⟨k, rfl⟩ := Int.eq_ofNat_of_zero_le hy0
  refine ⟨m', ?_, h3, h4⟩
  unfold getArcOriginState
  rw [PM.bind_some h1]
  refine PM.reads_eq (verified_eq ?_)
  rw [h2]; exact (Ideal.lookup L wf (y := k) (by omega) ho hd hs).1

theorem getNegLogProb_query (L : CountLaws A Ok g.beta) (wf : WF A Ok g.core.fst ord g.core.maxOrder V u)
    {s : Nat} (hs : s < g.core.fst.states.length) {d : Data A.C} (hd : Ideal A g.core.fst g.alpha g.beta s d)
    {y : Nat} {w : A.C} (hw : d.costs[y]? = some w) : Query (getNegLogProb (s : Int) (y : Int)) g (some w) := by
  intro m hm h
  obtain ⟨e, m', h1, h2, h3, h4⟩ := ensure_query L wf hs hd m hm h
  refine ⟨m', ?_, h3, h4⟩
  unfold getNegLogProb
  rw [PM.bind_some h1]
  refine PM.reads_eq (verified_eq ?_)
  rw [h2]; exact hw

theorem getNormalization_query (L : CountLaws A Ok g.beta) (wf : WF A Ok g.core.fst ord g.core.maxOrder V u)
    {s : Nat} (hs : s < g.core.fst.states.length) {d : Data A.C} (hd : Ideal A g.core.fst g.alpha g.beta s d) :
    Query (getNormalization (s : Int)) g (some d.norm) := by
  intro m hm h
  obtain ⟨e, m', h1, h2, h3, h4⟩ := ensure_query L wf hs hd m hm h
  refine ⟨m', ?_, h3, h4⟩
  unfold getNormalization
  rw [PM.bind_some h1, h2]
  rfl

theorem orElse_some {α β : Type} {x : PM A α} {f : α → β} {k : Model A → Except Fault β} {m m' : Model A} {a : α}
    (h : x m = .ok (some a, m')) : orElse x f k m = .ok (f a, m') := by
  unfold orElse; rw [h]

theorem orElse_none {α β : Type} {x : PM A α} {f : α → β} {k : Model A → Except Fault β} {m m' : Model A} {b : β}
    (h : x m = .ok (none, m')) (hk : k m' = .ok b) : orElse x f k m = .ok (b, m') := by
  unfold orElse; rw [h]; simp only; rw [hk]

theorem unigramState_eq {m : Model A} (wf : WF A Ok m.core.fst ord m.core.maxOrder V u) :
    unigramState m = .ok (u : Int) := by
  unfold unigramState
  have := wf.getBackoff wf.start_lt
  rw [wf.start] at this
  rw [this]; rfl

/-- where `NextState` leads -/
def Follows (A : Arith) (g : Sig A) (u s : Nat) (encode : Int → Str) (sym : Int) (t : Nat) : Prop :=
  (0 < g.symbols.findLabel (encode sym) ∧ ∃ o, Origin A g.core.fst (g.symbols.findLabel (encode sym)) s o ∧
    target g.core.fst o (g.symbols.findLabel (encode sym)) = some t) ∨
  (g.symbols.findLabel (encode sym) ≤ 0 ∧ t = u)

theorem nextState_query (L : CountLaws A Ok g.beta) (wf : WF A Ok g.core.fst ord g.core.maxOrder V u)
    (hl : ∀ str, g.symbols.findLabel str ≤ V) (encode : Int → Str) (sym : Int)
    {s : Nat} (hs : s < g.core.fst.states.length) :
    ∃ t, Follows A g u s encode sym t ∧ t < g.core.fst.states.length ∧
      Query (nextState encode (s : Int) sym) g (t : Int) := by
  by_cases hi : g.symbols.findLabel (encode sym) > 0
  · obtain ⟨o, t, h1, h2, h3, h4⟩ := getDestination_query L wf hs (y := g.symbols.findLabel (encode sym))
      (by omega) (hl _)
    refine ⟨t, .inl ⟨hi, o, h1, h2⟩, h3, ?_⟩
    intro m hm h
    obtain ⟨m', k1, k2, k3⟩ := h4 m hm h
    refine ⟨m', ?_, k2, k3⟩
    unfold nextState
    simp only [sig_symbols hm, if_pos hi]
    exact orElse_some k1
  · refine ⟨u, .inr ⟨by omega, rfl⟩, wf.u_lt, ?_⟩
    intro m hm h
    refine ⟨m, ?_, Same.refl m, h⟩
    unfold nextState
    simp only [sig_symbols hm, if_neg hi]
    exact orElse_none rfl (unigramState_eq (by rw [sig_core hm]; exact wf))

theorem extract_query (L : CountLaws A Ok g.beta) (wf : WF A Ok g.core.fst ord g.core.maxOrder V u)
    {s : Nat} (hs : s < g.core.fst.states.length) {d : Data A.C} (hd : Ideal A g.core.fst g.alpha g.beta s d)
    {r : LMScores A.D} (hr : fillLMScores g.symbols d = pure r) :
    Query (extractLMScores (s : Int)) g (some r) := by
  intro m hm h
  obtain ⟨e, m', h1, h2, h3, h4⟩ := ensure_query L wf hs hd m hm h
  refine ⟨m', ?_, h3, h4⟩
  unfold extractLMScores
  refine orElse_some ?_
  rw [PM.bind_some h1]
  refine PM.reads_eq ?_
  rw [h3.symbols, sig_symbols hm, h2]; exact hr

/-- `FillLMScores` of a vector with one entry per symbol -/
theorem fill_ok {d : Data A.C} (hd : d.Sized (V + 1)) (t : SymbolTable) : ∃ r, fillLMScores t d = pure r ∧
    r.norm = A.prob d.norm ∧ r.probs = d.costs.map A.prob ∧
    r.symbols = [] :: (List.range V).map fun (i : Nat) => t.findSymbol ((i : Int) + 1) := by
  unfold fillLMScores
  cases hc : d.costs with
  | nil => have := hd.2.2; rw [hc] at this; simp at this
  | cons c cs =>
    have := hd.2.2; rw [hc] at this
    simp only [List.length_cons, Nat.add_right_cancel_iff] at this
    exact ⟨_, rfl, rfl, by simp, by simp [this]⟩

theorem symLMScore_query (L : CountLaws A Ok g.beta) (wf : WF A Ok g.core.fst ord g.core.maxOrder V u)
    (hl : ∀ str, g.symbols.findLabel str ≤ V) (encode : Int → Str) (sym : Int)
    {s : Nat} (hs : s < g.core.fst.states.length) {d : Data A.C} (hd : Ideal A g.core.fst g.alpha g.beta s d) :
    ∃ w, Query (symLMScore encode (s : Int) sym) g w ∧
      (∀ i : Nat, (if sym = 0 then 0 else g.symbols.findLabel (encode sym)) = (i : Int) →
        d.costs[i]? = some w) ∧
      ((if sym = 0 then 0 else g.symbols.findLabel (encode sym)) < 0 → w = A.inf) := by
  by_cases hi : (if sym = 0 then 0 else g.symbols.findLabel (encode sym)) ≥ 0
  · obtain ⟨k, hk⟩ := Int.eq_ofNat_of_zero_le hi
    have hkV : k ≤ V := by
      by_cases h0 : sym = 0
      · rw [if_pos h0] at hk; omega
      · rw [if_neg h0] at hk; have := hl (encode sym); omega
    have hsz := hd.sized L wf hs
    obtain ⟨w, hw⟩ := exists_getElem?_of_lt (l := d.costs) (i := k) (by rw [hsz.2.2]; omega)
    refine ⟨w, ?_, ?_, fun h => by omega⟩
    · intro m hm h
      obtain ⟨m', k1, k2, k3⟩ := getNegLogProb_query L wf hs hd hw m hm h
      refine ⟨m', ?_, k2, k3⟩
      unfold symLMScore
      simp only [sig_symbols hm]
      rw [if_pos hi]
      refine orElse_some (f := id) ?_
      rw [hk]; exact k1
    · intro i h
      have : i = k := by omega
      subst this; exact hw
  · refine ⟨A.inf, ?_, fun i h => by omega, fun _ => rfl⟩
    intro m hm h
    refine ⟨m, ?_, Same.refl m, h⟩
    unfold symLMScore
    simp only [sig_symbols hm]
    rw [if_neg hi]

end Queries

/-! ## Observations -/

section Updates
variable {alpha beta : A.D} {V u : Nat}

/-- An action with a result that depends on everything but the cache, changing at most the automaton. -/
def Action {β : Type} (f : PM A β) (g : Sig A) (b : β) (c' : Core A.C) : Prop :=
  ∀ m : Model A, m.sig = g → CacheOk m None' →
    ∃ m', f m = .ok (some b, m') ∧ Params m m' ∧ m'.core = c' ∧ CacheOk m' None'

theorem Action.bind {β γ : Type} {f : PM A β} {k : β → PM A γ} {g : Sig A} {b : β} {x : γ} {c1 c2 : Core A.C}
    (h : Action f g b c1) (h' : Action (k b) { g with core := c1 } x c2) : Action (f >>= k) g x c2 := by
  intro m hm hc
  obtain ⟨m1, e1, e2, e3, e4⟩ := h m hm hc
  obtain ⟨m2, f1, f2, f3, f4⟩ := h' m1 (by rw [e2.sig, e3, hm]) e4
  exact ⟨m2, by rw [PM.bind_some e1]; exact f1, e2.trans f2, f3, f4⟩

theorem Query.action {β : Type} {f : PM A β} {g : Sig A} {b : β} (h : Query f g (some b)) :
    Action f g b g.core := by
  intro m hm hc
  obtain ⟨m', e1, e2, e3⟩ := h m hm hc
  exact ⟨m', e1, e2.params, by rw [e2.core]; exact sig_core hm, e3⟩

theorem observe_action {g : Sig A} {ord : Nat → Nat} (L : CountLaws A Ok g.beta)
    (wf : WF A Ok g.core.fst ord g.core.maxOrder V u) (ho : OrdersOk g.core ord) {s o : Nat} {y : Int}
    (hs : s < g.core.fst.states.length) (hy0 : 0 ≤ y) (hyV : y ≤ V) (horig : Origin A g.core.fst y s o) :
    ∃ (t : Nat) (c' : Core A.C) (ord' : Nat → Nat), Observed A Ok g.core c' ord ord' V u s y ∧
      target c'.fst s y = some t ∧ Action (observe (s : Int) (o : Int) y) g (t : Int) c' := by
  have hol := wf.ord_lt hs
  obtain ⟨t, c', ord', h1, h2, h3⟩ := updateModel_ok (alpha := g.alpha) L hy0 hyV (g.core.maxOrder.toNat + 2) g.core
    ord s o wf ho hs (by omega) horig
  refine ⟨t, c', ord', h1, h2, ?_⟩
  intro m hm hc
  obtain ⟨m', e1, e2, e3, e4⟩ := h3 m None' (sig_core hm) (sig_alpha hm) (sig_beta hm) hc (fun x hx => hx.elim)
  refine ⟨m', ?_, e2, e3, e4⟩
  unfold observe Model.fuel
  rw [sig_core hm]; exact e1

/-- A history of observations of symbols after states. -/
inductive Observes (A : Arith) (Ok : A.C → Prop) (V u : Nat) :
    Core A.C → (Nat → Nat) → List (Nat × Int) → Core A.C → (Nat → Nat) → Prop
  | nil {c ord} : Observes A Ok V u c ord [] c ord
  | cons {c ord s y c1 ord1 l c2 ord2} : s < c.fst.states.length → 0 ≤ y → y ≤ (V : Int) →
      Observed A Ok c c1 ord ord1 V u s y → Observes A Ok V u c1 ord1 l c2 ord2 →
      Observes A Ok V u c ord ((s, y) :: l) c2 ord2

theorem Observes.append {c ord l c1 ord1 l' c2 ord2} (h : Observes A Ok V u c ord l c1 ord1)
    (h' : Observes A Ok V u c1 ord1 l' c2 ord2) : Observes A Ok V u c ord (l ++ l') c2 ord2 := by
  induction h with
  | nil => exact h'
  | cons a b c d _ ih => exact .cons a b c d (ih h')

theorem Observes.len {c ord l c1 ord1} (h : Observes A Ok V u c ord l c1 ord1) :
    c.fst.states.length ≤ c1.fst.states.length := by
  induction h with
  | nil => exact Nat.le_refl _
  | cons _ _ _ d _ ih => have := d.len; omega

theorem Observes.wf {c ord l c1 ord1} (h : Observes A Ok V u c ord l c1 ord1)
    (wf : WF A Ok c.fst ord c.maxOrder V u) : WF A Ok c1.fst ord1 c1.maxOrder V u := by
  induction h with
  | nil => exact wf
  | cons _ _ _ d _ ih => exact ih d.wf

theorem Observes.orders {c ord l c1 ord1} (h : Observes A Ok V u c ord l c1 ord1)
    (ho : OrdersOk c ord) : OrdersOk c1 ord1 := by
  induction h with
  | nil => exact ho
  | cons _ _ _ d _ ih => exact ih d.orders

theorem Observes.maxOrder {c ord l c1 ord1} (h : Observes A Ok V u c ord l c1 ord1) :
    c1.maxOrder = c.maxOrder := by
  induction h with
  | nil => rfl
  | cons _ _ _ d _ ih => rw [ih, d.maxOrder]

theorem Observes.start {c ord l c1 ord1} (h : Observes A Ok V u c ord l c1 ord1) :
    c1.fst.start = c.fst.start := by
  induction h with
  | nil => rfl
  | cons _ _ _ d _ ih => rw [ih, d.start]

theorem Observes.sameBackoff {c ord l c1 ord1} (h : Observes A Ok V u c ord l c1 ord1) :
    ∀ x, x < c.fst.states.length → backoff c1.fst x = backoff c.fst x ∧ ord1 x = ord x := by
  induction h with
  | nil => exact fun _ _ => ⟨rfl, rfl⟩
  | cons _ _ _ d _ ih =>
    intro x hx
    have := ih x (by have := d.len; omega)
    rw [this.1, this.2]
    exact ⟨d.sameBackoff x hx, d.sameOrd x hx⟩

theorem observeAgain_action {g : Sig A} {ord : Nat → Nat} (L : CountLaws A Ok g.beta) {s : Nat} {y : Int}
    (hy0 : 0 ≤ y) (hyV : y ≤ V) : ∀ (k : Nat) (c : Core A.C) (ord : Nat → Nat),
    WF A Ok c.fst ord c.maxOrder V u → OrdersOk c ord → s < c.fst.states.length →
    (count A c.fst s y).isSome = true →
    ∃ (c' : Core A.C) (ord' : Nat → Nat), Observes A Ok V u c ord (List.replicate k (s, y)) c' ord' ∧
      Action (observeAgain (s : Int) y k) { g with core := c } () c' := by
  intro k
  induction k with
  | zero =>
    intro c ord _ _ _ _
    exact ⟨c, ord, .nil, fun m hm hc => ⟨m, rfl, Params.refl m, sig_core hm, hc⟩⟩
  | succ k ih =>
    intro c ord wf ho hs hc
    obtain ⟨t, c1, ord1, h1, _, h3⟩ := observe_action (g := { g with core := c }) L wf ho hs hy0 hyV (.here hc)
    have hlen := h1.len
    obtain ⟨c2, ord2, h4, h5⟩ := ih c1 ord1 h1.wf h1.orders (by simp only at hlen; omega)
      (by rw [h1.count_self s .here]; rfl)
    exact ⟨c2, ord2, .cons hs hy0 hyV h1 h4, h3.bind h5⟩

theorem symIndex_le {t : SymbolTable} (hl : ∀ str, t.findLabel str ≤ V) (encode : Int → Str) (sym : Int) :
    symIndex encode t sym ≤ V := by
  unfold symIndex
  by_cases h : sym > 0
  · rw [if_pos h]; exact hl _
  · rw [if_neg h]; omega

/-- One symbol of `UpdateLMCounts`: `count` observations after `s`, none if the symbol is unknown. -/
theorem updateSymbol_action {g : Sig A} {ord : Nat → Nat} (L : CountLaws A Ok g.beta)
    (wf : WF A Ok g.core.fst ord g.core.maxOrder V u) (ho : OrdersOk g.core ord)
    (hl : ∀ str, g.symbols.findLabel str ≤ V) (encode : Int → Str) {count : Int} (hcount : 0 < count)
    (sym : Int) {s : Nat} (hs : s < g.core.fst.states.length) :
    ∃ (t : Nat) (c' : Core A.C) (ord' : Nat → Nat),
      Observes A Ok V u g.core ord
        (if symIndex encode g.symbols sym < 0 then []
          else List.replicate count.toNat (s, symIndex encode g.symbols sym)) c' ord' ∧
      t < c'.fst.states.length ∧
      (if symIndex encode g.symbols sym < 0 then t = g.core.fst.start
        else Follows A { g with core := c' } u s encode sym t) ∧
      Action (updateSymbol encode count (s : Int) sym) g (t : Int) c' := by
  have hfirst : ∀ m : Model A, m.sig = g → symIndex encode m.symbols sym = symIndex encode g.symbols sym :=
    fun m hm => by rw [sig_symbols hm]
  by_cases hi : symIndex encode g.symbols sym < 0
  · simp only [if_pos hi]
    refine ⟨g.core.fst.start, g.core, ord, .nil, wf.start_lt, rfl, ?_⟩
    intro m hm hc
    refine ⟨m, ?_, Params.refl m, sig_core hm, hc⟩
    unfold updateSymbol
    rw [PM.reads_bind (a := symIndex encode g.symbols sym) (by rw [hfirst m hm]), if_pos hi]
    rw [PM.reads_eq (a := (g.core.fst.start : Int)) (by rw [sig_core hm])]
  · simp only [if_neg hi]
    have hy0 : 0 ≤ symIndex encode g.symbols sym := by omega
    have hyV := symIndex_le hl encode sym
    generalize hy : symIndex encode g.symbols sym = y at *
    obtain ⟨o, horig⟩ := wf.origin L hy0 hyV s hs
    have q1 := (getArcOrigin_query L wf hs hy0 hyV horig).action
    obtain ⟨t1, c1, ord1, h1, _, h3⟩ := observe_action L wf ho hs hy0 hyV horig
    have hlen := h1.len
    obtain ⟨c2, ord2, h4, h5⟩ := observeAgain_action (g := g) (ord := ord) L hy0 hyV (count - 1).toNat c1 ord1
      h1.wf h1.orders (s := s) (by omega) (by rw [h1.count_self s .here]; rfl)
    have hlen2 := h4.len
    obtain ⟨t, h6, h7, h8⟩ := nextState_query (g := { g with core := c2 }) L (h4.wf h1.wf) hl encode sym
      (s := s) (by simp only; omega)
    refine ⟨t, c2, ord2, ?_, h7, h6, ?_⟩
    · have : count.toNat = (count - 1).toNat + 1 := by omega
      rw [this]
      exact .cons hs hy0 hyV h1 h4
    · have hlast : Action (PM.total (nextState encode (s : Int) sym)) { g with core := c2 } (t : Int) c2 := by
        intro m hm hc
        obtain ⟨m', e1, e2, e3⟩ := h8 m hm hc
        refine ⟨m', ?_, e2.params, by rw [e2.core]; exact sig_core hm, e3⟩
        unfold PM.total
        rw [e1]
      have hall : Action (getArcOriginState (s : Int) y >>= fun o => observe (s : Int) o y >>= fun _ =>
          observeAgain (s : Int) y (count - 1).toNat >>= fun _ => PM.total (nextState encode (s : Int) sym))
          g (t : Int) c2 := Action.bind q1 (Action.bind h3 (Action.bind h5 hlast))
      intro m hm hc
      obtain ⟨m', e1, e2⟩ := hall m hm hc
      refine ⟨m', ?_, e2⟩
      rw [← e1]
      unfold updateSymbol
      rw [PM.reads_bind (a := y) (by rw [hfirst m hm]), if_neg hi]

/-- The loop of `UpdateLMCounts`. -/
theorem updateSymbols_action (encode : Int → Str) {count : Int} (hcount : 0 < count) (syms : List Int) :
    ∀ {g : Sig A} {ord : Nat → Nat}, CountLaws A Ok g.beta →
    WF A Ok g.core.fst ord g.core.maxOrder V u → OrdersOk g.core ord →
    (∀ str, g.symbols.findLabel str ≤ V) → ∀ {s : Nat}, s < g.core.fst.states.length →
    ∃ (c' : Core A.C) (ord' : Nat → Nat) (h : List (Nat × Int)), Observes A Ok V u g.core ord h c' ord' ∧
      Action (updateSymbols encode count (s : Int) syms) g () c' := by
  induction syms with
  | nil =>
    intro g ord _ _ _ _ s _
    exact ⟨g.core, ord, [], .nil, fun m hm hc => ⟨m, rfl, Params.refl m, sig_core hm, hc⟩⟩
  | cons y ys ih =>
    intro g ord L wf ho hl s hs
    obtain ⟨t, c1, ord1, h1, h2, _, h4⟩ := updateSymbol_action L wf ho hl encode hcount y hs
    obtain ⟨c2, ord2, l, h5, h6⟩ := ih (g := { g with core := c1 }) L (h1.wf wf) (h1.orders ho) hl h2
    exact ⟨c2, ord2, _, h1.append h5, h4.bind h6⟩

end Updates
end Mozolm.Ppm
