import Verif.Ppm.Grows
import Verif.Ppm.TrainText

/-!
# Saving a model (`WriteFst`)

Model of `WriteFst` and what is needed to show that neither saving a model nor saving and reopening it changes an
answer.
-/

namespace Mozolm.Ppm
variable {A : Arith} {Ok : A.C → Prop} {full : Bool}

/-- `WriteFst`, ppm_as_fst_model.cc:446-453: whether the status is OK, the contents of the file (the automaton with its
symbols, which are the model's), and the model afterwards.  `written`: whether `fst_->Write` succeeded.  The member
function is `const`, but the automaton it sorts in place is the model's. -/
def writeFst (written : Bool) (m : Model A) : (Bool × Option (Fst A.C × SymbolTable)) × Model A :=
  let m' := { m with core := { m.core with fst := arcSort m.core.fst } }    -- :447
  if written then ((true, some (m'.core.fst, m'.symbols)), m')              -- :451
  else ((false, none), m')                                                  -- :448-449

/-! ## Sorting -/

theorem sortArcs_of_sorted {C : Type} : ∀ {l : List (Arc C)}, l.Pairwise (fun x y => x.label ≤ y.label) → sortArcs l = l
  | [], _ => rfl
  | a :: l, h => by
    rw [List.pairwise_cons] at h
    rw [sortArcs_eps a l h.1, sortArcs_of_sorted h.2]

/-- The arcs of the unigram state are in the order of their labels. -/
def UnigramSorted {C : Type} (f : Fst C) : Prop :=
  ∀ u st, backoff f f.start = some u → f.states[u]? = some st → (st.arcs.map Arc.label).Pairwise (· ≤ ·)

theorem arcSort_like {f : Fst A.C} {ord : Nat → Nat} {mo : Int} {V u : Nat} (wf : WF A Ok f ord mo V u)
    (h : RightComm A ∨ UnigramSorted f) : FstLike A f (arcSort f) := by
  refine ⟨rfl, by simp [arcSort], fun s st hs => ?_⟩
  have ok := wf.states s st hs
  refine ⟨_, by rw [arcSort_get, hs]; rfl, ?_⟩
  by_cases hu : s = u
  · subst hu
    rcases h with h | h
    · exact .root h rfl (ok.unigram rfl).2.2.1 (Shuffle.sort _)
    · refine .same ?_
      have := h s st wf.start hs
      rw [List.pairwise_map] at this
      simp only [sortArcs_of_sorted this]
  · obtain ⟨_, w, b, rest, h2, _⟩ := ok.node hu
    obtain ⟨_, w', b', rest', h2', _⟩ := ok.sorted.node hu
    have he : sortArcs st.arcs = ⟨0, w, b⟩ :: sortArcs rest := by
      rw [h2]
      refine sortArcs_eps _ _ fun x hx => ?_
      have hnd := ok.nodup
      rw [h2] at hnd
      simp only [List.map_cons, List.nodup_cons] at hnd
      have hx0 : x.label ≠ 0 := fun e => hnd.1 (List.mem_map.mpr ⟨x, hx, e⟩)
      have := (ok.arcs x (by rw [h2]; exact List.mem_cons_of_mem _ hx) hx0).2.2.2.1
      simp only; omega
    exact .node (e := ⟨0, w, b⟩) rfl rfl h2 he (Shuffle.sort _)

theorem arcSort_unigram (f : Fst A.C) : UnigramSorted (arcSort f) := by
  intro u st _ hs
  rw [arcSort_get] at hs
  cases hf : f.states[u]? with
  | none => rw [hf] at hs; cases hs
  | some st0 =>
    rw [hf] at hs
    simp only [Option.map_some, Option.some.injEq] at hs
    subst hs
    rw [List.pairwise_map]
    exact sortArcs_sorted _

theorem backoff_like {f g : Fst A.C} (h : FstLike A f g) (s : Nat) : backoff f s = backoff g s := by
  unfold backoff
  have := h.get s
  generalize f.states[s]? = x at this ⊢
  generalize g.states[s]? = y at this ⊢
  cases this with
  | none => rfl
  | some hl =>
    cases hl with
    | same e => rw [e]
    | node h1 h2 h3 h4 h5 => simp only [h3, h4]
    | root h1 h2 h3 h4 =>
      rcases root_heads h3 h4 with ⟨e1, e2⟩ | ⟨a, r, a', r', e1, e2, e3, e4⟩
      · simp only [e1, e2]
      · simp only [e1, e2, if_neg e3, if_neg e4]

theorem below_like {f g : Fst A.C} (h : FstLike A f g) {x t : Nat} (hb : Below f x t) : Below g x t := by
  induction hb with
  | step e => exact .step (by rw [← backoff_like h]; exact e)
  | trans e _ ih => exact .trans (by rw [← backoff_like h]; exact e) ih

theorem Data.Sized.even {d : Data A.C} {k : Nat} (h : d.Sized k) : Even d := by
  unfold Even; rw [h.1, h.2.1, h.2.2]; exact ⟨rfl, rfl⟩

theorem Ideal.like {beta : A.D} (L : CountLaws A Ok beta) {f g : Fst A.C} {ord : Nat → Nat} {mo : Int} {V u : Nat}
    (wf : WF A Ok f ord mo V u) (h : FstLike A f g) {alpha : A.D} {s : Nat} {d : Data A.C}
    (hi : Ideal A f alpha beta s d) : Ideal A g alpha beta s d := by
  induction hi with
  | unigram hb hd =>
    exact .unigram (by rw [← backoff_like h]; exact hb) (by rw [← stateData_like h _ _ _ _ ⟨rfl, rfl⟩]; exact hd)
  | node hb hbd hd ih =>
    have hsz := hbd.sized L wf (wf.of_backoff hb).2.2.1
    exact .node (by rw [← backoff_like h]; exact hb) ih (by rw [← stateData_like h _ _ _ _ hsz.even]; exact hd)

theorem CacheOk.like {m : Model A} {ord : Nat → Nat} {V u : Nat} (hi : Inv A Ok m ord V u) {g : Fst A.C}
    (h : FstLike A m.core.fst g) : CacheOk { m with core := { m.core with fst := g } } None' := by
  have hc := hi.cache
  refine ⟨⟨?_, hc.entry, hc.idx, hc.size, hc.max⟩, hc.times, ?_, ?_⟩
  · simp only [← h.length]; exact hc.len
  · intro e he e' he' hb hlt
    exact hc.recent e he e' he' (below_like h.symm hb) hlt
  · intro e he
    rcases hc.valid e he with v | ⟨e', v1, v2, v3⟩ | ⟨x, v1, v2⟩
    · exact .inl (v.like hi.laws hi.wf h)
    · exact .inr (.inl ⟨e', v1, below_like h v2, v3⟩)
    · exact v1.elim

/-- `WriteFst` keeps the invariant. -/
theorem Inv.write {m : Model A} {ord : Nat → Nat} {V u : Nat} (hi : Inv A Ok m ord V u)
    (h : RightComm A ∨ UnigramSorted m.core.fst) (b : Bool) : Inv A Ok (writeFst b m).2 ord V u := by
  have hl := arcSort_like hi.wf h
  have : (writeFst b m).2 = { m with core := { m.core with fst := arcSort m.core.fst } } := by
    unfold writeFst; cases b <;> rfl
  rw [this]
  refine ⟨hi.laws, (hi.wf.toWF0.arcSort).toWF hi.wf.V_pos, fun hs => (hi.orders hs).setFst hl.length.symm,
    CacheOk.like hi hl, hi.labels⟩

/-! ## Models that cannot be told apart -/

/-- The same model up to the order of arcs and the cache. -/
structure Alike (A : Arith) (Ok : A.C → Prop) (full : Bool) (m n : Model A) : Prop where
  left : ∃ ord V u, Inv A Ok m ord V u
  right : ∃ ord V u, Inv A Ok n ord V u
  core : CoreLike A full m.core n.core
  alpha : n.alpha = m.alpha
  beta : n.beta = m.beta
  symbols : n.symbols = m.symbols
  static : full = true → n.static = m.static

theorem Alike.symm {m n : Model A} (h : Alike A Ok full m n) : Alike A Ok full n m :=
  ⟨h.right, h.left, ⟨h.core.fst.symm, fun e => (h.core.orders e).symm, h.core.maxOrder.symm⟩, h.alpha.symm, h.beta.symm,
    h.symbols.symm, fun e => (h.static e).symm⟩

theorem Alike.trans {m n k : Model A} (h : Alike A Ok full m n) (h' : Alike A Ok full n k) : Alike A Ok full m k :=
  ⟨h.left, h'.right, ⟨h.core.fst.trans h'.core.fst, fun e => (h.core.orders e).trans (h'.core.orders e),
    h.core.maxOrder.trans h'.core.maxOrder⟩, h'.alpha.trans h.alpha, h'.beta.trans h.beta,
    h'.symbols.trans h.symbols, fun e => (h'.static e).trans (h.static e)⟩

theorem Op.valid_like {m n : Model A} (h : FstLike A m.core.fst n.core.fst) {op : Op} (hv : op.Valid m) : op.Valid n := by
  cases op <;> simp only [Op.Valid] at hv ⊢ <;> first | trivial | (rw [← h.length]; exact hv)

/-- One call: the same answer, and again the same model up to the order of arcs and the cache. -/
theorem Alike.step {m n : Model A} (h : Alike A Ok full m n) (encode : Int → Str) {op : Op}
    (hf : full = true ∨ op.asks = true) (hv : op.Valid m) {a : Answer A} {m1 : Model A} (hs : step encode op m = .ok (a, m1)) :
    ∃ n1, Ppm.step encode op n = .ok (a, n1) ∧ Alike A Ok full m1 n1 := by
  obtain ⟨ord, V, u, hi⟩ := h.left
  obtain ⟨ordn, Vn, un, hj⟩ := h.right
  have hvn : op.Valid n := Op.valid_like h.core.fst hv
  obtain ⟨a1, c1, o1, l1, e1, _, e3⟩ := step_effect (g := m.sig) hi.laws hi.wf hi.orders hi.labels encode rfl hv
  obtain ⟨a2, c2, o2, l2, f1, _, f3⟩ := step_effect (g := n.sig) hj.laws hj.wf hj.orders hj.labels encode rfl hvn
  have iu : Inv A Ok (m.uncached 2) ord V u := hi.uncached (by omega)
  have ju : Inv A Ok (n.uncached 2) ordn Vn un := hj.uncached (by omega)
  have hlike : ModelLike full (m.uncached 2) (n.uncached 2) := by
    have e : n.uncached 2 = { m.uncached 2 with core := n.core, static := n.static } := by
      unfold Model.uncached
      rw [h.core.fst.length, h.alpha, h.beta, h.symbols]
    rw [e]
    exact .mk (m := m.uncached 2) h.core h.static (fun e he => by cases he)
  obtain ⟨m1', p1, p2, p3, p4⟩ := e3 m rfl hi.cache
  obtain ⟨mu, q1, q2, q3, q4⟩ := e3 (m.uncached 2) rfl iu.cache
  obtain ⟨n1, r1, r2, r3, r4⟩ := f3 n rfl hj.cache
  obtain ⟨nu, t1, t2, t3, t4⟩ := f3 (n.uncached 2) rfl ju.cache
  have hl := step_lock (A := A) encode op hf _ _ hlike
  rw [q1, t1] at hl
  rw [hs] at p1
  simp only [Except.ok.injEq, Prod.mk.injEq] at p1
  obtain ⟨rfl, rfl⟩ := p1
  generalize hx : (Except.ok (a, mu) : Except Fault (Answer A × Model A)) = x at hl
  generalize hy : (Except.ok (a2, nu) : Except Fault (Answer A × Model A)) = y at hl
  cases hl with
  | error e => cases hx
  | ok b hml =>
    simp only [Except.ok.injEq, Prod.mk.injEq] at hx hy
    obtain ⟨rfl, rfl⟩ := hx
    obtain ⟨rfl, rfl⟩ := hy
    refine ⟨n1, r1, ⟨⟨o1, V, u, hi.after (by rw [p3]; exact e1) p2 p4⟩, ⟨o2, Vn, un, hj.after (by rw [r3]; exact f1) r2 r4⟩,
      ?_, by rw [r2.alpha, p2.alpha]; exact h.alpha, by rw [r2.beta, p2.beta]; exact h.beta,
      by rw [r2.symbols, p2.symbols]; exact h.symbols, fun e => by rw [r2.static, p2.static]; exact h.static e⟩⟩
    rw [p3, r3, ← q3, ← t3]
    cases hml with
    | mk k1 _ _ => exact k1

theorem Alike.run {encode : Int → Str} {m m' : Model A} {tr : List (Op × Answer A)} (hr : Run encode m tr m') :
    ∀ {n : Model A}, Alike A Ok full m n → (full = true ∨ ∀ x ∈ tr, x.1.asks = true) →
    ∃ n', Run encode n tr n' ∧ Alike A Ok full m' n' := by
  induction hr with
  | nil => intro n h _; exact ⟨n, .nil, h⟩
  | cons hv hs _ ih =>
    intro n h hf
    obtain ⟨n1, e1, e2⟩ := h.step encode (hf.imp_right fun k => k _ List.mem_cons_self) hv hs
    obtain ⟨n', e3, e4⟩ := ih e2 (hf.imp_right fun k x hx => k x (List.mem_cons_of_mem _ hx))
    exact ⟨n', .cons (Op.valid_like h.core.fst hv) e1 e3, e4⟩

theorem Alike.write {m : Model A} {ord : Nat → Nat} {V u : Nat} (hi : Inv A Ok m ord V u)
    (h : RightComm A ∨ UnigramSorted m.core.fst) (b : Bool) : Alike A Ok true m (writeFst b m).2 := by
  have hl := arcSort_like hi.wf h
  have e : (writeFst b m).2 = { m with core := { m.core with fst := arcSort m.core.fst } } := by
    unfold writeFst; cases b <;> rfl
  refine ⟨⟨ord, V, u, hi⟩, ⟨ord, V, u, hi.write h b⟩, ?_, ?_, ?_, ?_, ?_⟩
  · rw [e]; exact ⟨hl, fun _ => rfl, rfl⟩
  all_goals rw [e]
  intro _; rfl

/-! ## The unigram state -/

/-- Calls do not change the order of the arcs of the unigram state. -/
theorem step_unigram {m m' : Model A} {ord : Nat → Nat} {V u : Nat} (hi : Inv A Ok m ord V u) (encode : Int → Str)
    {op : Op} (hv : op.Valid m) {a : Answer A} (hs : step encode op m = .ok (a, m')) (h : UnigramSorted m.core.fst) :
    UnigramSorted m'.core.fst := by
  obtain ⟨a', m1, ord', l, e1, e2, _⟩ := step_inv hi encode hv
  rw [hs] at e1
  simp only [Except.ok.injEq, Prod.mk.injEq] at e1
  obtain ⟨rfl, rfl⟩ := e1
  intro u' st' hb hst'
  have hu : u' = u := by
    rw [e2.wf.start] at hb; injection hb with hb; exact hb.symm
  subst hu
  obtain ⟨st, hst, ok⟩ := hi.wf.exists_state hi.wf.u_lt
  have ok' := e2.wf.states _ _ hst'
  obtain ⟨st1, k1, k2⟩ := step_grows encode op m a m' hs u' st hst
  rw [hst'] at k1
  injection k1 with k1
  subst k1
  have hlen : (st.arcs.map Arc.label).length = (st'.arcs.map Arc.label).length := by
    rw [List.length_map, List.length_map, (ok.unigram rfl).2.1, (ok'.unigram rfl).2.1]
  rw [← List.IsPrefix.eq_of_length k2 hlen]
  exact h u' st hi.wf.start hst

/-! ## Orders -/

/-- Two well-formed automata with the same backoffs have the same orders. -/
theorem ord_unique {f g : Fst A.C} {ord ord' : Nat → Nat} {mo mo' : Int} {V V' u u' : Nat} (wf : WF A Ok f ord mo V u)
    (wf' : WF A Ok g ord' mo' V' u') (h : FstLike A f g) : ∀ s, s < f.states.length → ord' s = ord s := by
  have hu : u' = u := by
    have h1 := wf.start
    have h2 := wf'.start
    rw [backoff_like h, h.start, h2] at h1
    injection h1
  subst hu
  have key : ∀ k s, ord s = k → s < f.states.length → ord' s = ord s := by
    intro k
    induction k with
    | zero =>
      intro s hk hs
      by_cases hsu : s = u'
      · subst hsu; rw [wf.ord_u, wf'.ord_u]
      · obtain ⟨b, _, _, ho⟩ := wf.backoff_node hs hsu
        omega
    | succ k ih =>
      intro s hk hs
      have hsu : s ≠ u' := by rintro rfl; rw [wf.ord_u] at hk; cases hk
      obtain ⟨b, hb, hbl, ho⟩ := wf.backoff_node hs hsu
      obtain ⟨b', hb', _, ho'⟩ := wf'.backoff_node (by rw [← h.length]; exact hs) hsu
      rw [← backoff_like h, hb] at hb'
      injection hb' with hb'
      subst hb'
      have := ih b (by omega) hbl
      omega
  exact fun s hs => key _ s rfl hs

theorem orders_eq {c c' : Core A.C} {ord ord' : Nat → Nat} (h : OrdersOk c ord) (h' : OrdersOk c' ord')
    (hl : c.fst.states.length = c'.fst.states.length) (ho : ∀ s, s < c.fst.states.length → ord' s = ord s) :
    c.orders = c'.orders := by
  refine List.ext_getElem? fun i => ?_
  by_cases hi : i < c.fst.states.length
  · rw [h.get i hi, h'.get i (by omega), ho i hi]
  · rw [List.getElem?_eq_none (by rw [h.len]; omega), List.getElem?_eq_none (by rw [h'.len]; omega)]

/-- what `CalculateStateOrders` makes of an automaton -/
theorem calculate_fst {f : Fst A.C} {mo : Int} {b : Bool} {c : Core A.C} (h : calculateStateOrders A f mo b = pure c) :
    c.fst = f ∧ (b = false → c.orders = []) := by
  unfold calculateStateOrders at h
  simp only at h
  by_cases h1 : f.start ≥ f.states.length
  · rw [if_pos h1] at h; cases h
  rw [if_neg h1] at h
  obtain ⟨u, _, h⟩ := Res.bind_eq.mp h
  by_cases h2 : u < 0
  · rw [if_pos h2] at h; cases h
  rw [if_neg h2] at h
  obtain ⟨r, _, h⟩ := Res.bind_eq.mp h
  have := Res.pure_inj h
  subst this
  refine ⟨rfl, fun hb => ?_⟩
  simp only [hb, Bool.false_eq_true, if_false]

/-- What `Read` leaves: the automaton with the orders calculated for it. -/
theorem read_parts {o : Options A.D} {src : Source A.C} {vocab : Option (Option (List (List Str)))} {m : Model A}
    (h : read A o src vocab = pure m) :
    calculateStateOrders A m.core.fst (initParameters A o).maxOrder (!o.static) = pure m.core ∧
    (o.static = true → m.core.orders = []) := by
  unfold read at h
  simp only at h
  obtain ⟨r, _, h⟩ := Res.bind_eq.mp h
  obtain ⟨r2, _, h⟩ := Res.bind_eq.mp h
  obtain ⟨c, h3, h⟩ := Res.bind_eq.mp h
  have := Res.pure_inj h
  subst this
  have h3' : calculateStateOrders A r2.1 (initParameters A o).maxOrder (!o.static) = pure c := h3
  obtain ⟨e1, e2⟩ := calculate_fst h3'
  simp only
  exact ⟨by rw [e1]; exact h3', fun hb => e2 (by rw [hb]; rfl)⟩

/-- the largest order that may be reached, as `CalculateStateOrders` sets it -/
structure Limit (mo0 mo : Int) (ord : Nat → Nat) (n : Nat) : Prop where
  ge : mo0 ≤ mo
  lt : ∀ s, s < n → (ord s : Int) < mo
  reached : mo0 < mo → ∃ s, s < n ∧ mo = (ord s : Int) + 1

theorem Limit.unique {mo0 mo mo' : Int} {ord ord' : Nat → Nat} {n n' : Nat} (h : Limit mo0 mo ord n)
    (h' : Limit mo0 mo' ord' n') (hn : n = n') (ho : ∀ s, s < n → ord' s = ord s) : mo' = mo := by
  subst hn
  have h1 := h.ge
  have h2 := h'.ge
  rcases Int.lt_trichotomy mo mo' with hlt | he | hlt
  · obtain ⟨s, hs, e⟩ := h'.reached (by omega)
    have := h.lt s hs
    have := ho s hs
    omega
  · exact he.symm
  · obtain ⟨s, hs, e⟩ := h.reached (by omega)
    have := h'.lt s hs
    have := ho s hs
    omega

/-- Everything about a loaded model. -/
structure Loaded (A : Arith) (Ok : A.C → Prop) (o : Options A.D) (m : Model A) (ord : Nat → Nat) (V u : Nat) : Prop where
  inv : Inv A Ok m ord V u
  dense : Dense m.symbols V
  limit : Limit (initParameters A o).maxOrder m.core.maxOrder ord m.core.fst.states.length
  alpha : m.alpha = (initParameters A o).alpha
  beta : m.beta = (initParameters A o).beta
  static : m.static = o.static
  orders : o.static = true → m.core.orders = []

theorem read_limit {o : Options A.D} {src : Source A.C} {vocab : Option (Option (List (List Str)))} {m : Model A}
    (h : read A o src vocab = pure m) {ord : Nat → Nat} {V u : Nat} (hi : Inv A Ok m ord V u) :
    Limit (initParameters A o).maxOrder m.core.maxOrder ord m.core.fst.states.length := by
  obtain ⟨h1, _⟩ := read_parts h
  obtain ⟨c, c1, c2, c3, c4, c5, c6, c7⟩ := calculateStateOrders_ok hi.wf (initParameters A o).maxOrder (!o.static)
  rw [h1] at c1
  have := Res.pure_inj c1
  subst this
  refine ⟨c3, fun s hs => ?_, c7⟩
  obtain ⟨st, _, ok⟩ := hi.wf.exists_state hs
  exact ok.ord_lt

theorem Initial.loaded {o : Options A.D} {m : Model A} (L : CountLaws A Ok (initParameters A o).beta)
    (h : Initial A Ok o m) : ∃ ord V u, Loaded A Ok o m ord V u := by
  have hst := h.static_eq
  cases h with
  | vocabulary h1 h2 =>
    obtain ⟨m', ord, V, k1, k2, k3, _, _, _, k7, k8, _⟩ := read_vocab_ok (Ok := Ok) L h1
    have : m = m' := Res.pure_inj (h2.symm.trans k1)
    subst this
    exact ⟨ord, V, 1, k2, k3.dense, read_limit h2 k2, k7, k8, hst, (read_parts h2).2⟩
  | automaton h1 h2 h3 h4 h5 =>
    obtain ⟨m', V', k1, k2, k3, _, _, _, k7, k8⟩ := read_fst_ok (Ok := Ok) L h1 h2 h3 _ h4
    have : m = m' := Res.pure_inj (h5.symm.trans k1)
    subst this
    exact ⟨_, V', _, k2, k3.dense, read_limit h5 k2, k7, k8, hst, (read_parts h5).2⟩

theorem Loaded.run {o : Options A.D} {m m' : Model A} {ord : Nat → Nat} {V u : Nat} (h : Loaded A Ok o m ord V u)
    {encode : Int → Str} {tr : List (Op × Answer A)} (hr : Run encode m tr m') : ∃ ord', Loaded A Ok o m' ord' V u := by
  obtain ⟨ord', l, h1, h2, h3, h4⟩ := run_inv hr h.inv
  refine ⟨ord', h1, by rw [h2.symbols]; exact h.dense, ⟨by rw [h3.maxOrder]; exact h.limit.ge, ?_, ?_⟩,
    by rw [h2.alpha]; exact h.alpha, by rw [h2.beta]; exact h.beta, by rw [h2.static]; exact h.static, ?_⟩
  · intro s hs
    obtain ⟨st, _, ok⟩ := h1.wf.exists_state hs
    exact ok.ord_lt
  · intro hlt
    rw [h3.maxOrder] at hlt ⊢
    obtain ⟨s, hs, e⟩ := h.limit.reached hlt
    refine ⟨s, by have := h3.len; omega, ?_⟩
    rw [(h3.sameBackoff s hs).2]; exact e
  · intro hst
    rw [(h4 (h.static.trans hst)).1]; exact h.orders hst

/-! ## Reading characters that are known -/

theorem addChars_known {t : SymbolTable} {V : Nat} (ht : Dense t V) (f : Fst A.C) (u : Nat) : ∀ cs : List Str,
    (∀ c ∈ cs, c ∈ t.map Prod.snd) → addChars A u cs (f, t) = pure (f, t)
  | [], _ => rfl
  | c :: cs, h => by
    unfold addChars
    rw [if_neg (by rw [ht.find_neg]; exact fun hn => hn (h c List.mem_cons_self))]
    exact addChars_known ht f u cs fun x hx => h x (List.mem_cons_of_mem _ hx)

theorem addLines_known {t : SymbolTable} {V : Nat} (ht : Dense t V) {f : Fst A.C} {u : Nat}
    (hu : backoff f f.start = some u) : ∀ ls : List (List Str), (∀ c ∈ ls.flatten, c ∈ t.map Prod.snd) →
    addLines A ls (f, t) = pure (f, t)
  | [], _ => rfl
  | l :: ls, h => by
    unfold addLines addExtraCharacters
    rw [getBackoff_some hu]
    simp only [Res.pure_bind]
    rw [if_neg (by omega), toNat_coe, addChars_known ht f u l fun c hc => h c (by simp [hc])]
    simp only [Res.pure_bind]
    exact addLines_known ht hu ls fun c hc => h c (by rw [List.flatten_cons]; exact List.mem_append_right _ hc)

/-- Reading the file of a saved model: options that differ in the size of the cache, and perhaps make the model static;
a vocabulary with no new characters. -/
theorem reopen {o o' : Options A.D} {a m : Model A} {ord : Nat → Nat} {V u : Nat} (ha : Loaded A Ok o a ord V u)
    (hm : Alike A Ok true a m) (hp : initParameters A o' = { initParameters A o with
      maxCache := (initParameters A o').maxCache, static := o'.static }) (h : RightComm A ∨ UnigramSorted m.core.fst)
    (vocab : Option (List (List Str))) (hv : vocab ≠ some []) (hk : ∀ c ∈ (vocab.getD []).flatten, c ∈ m.symbols.map Prod.snd) :
    ∃ n, read A o' (.fstFile (some (arcSort m.core.fst, m.symbols))) (vocab.map some) = pure n ∧ Initial A Ok o' n ∧
      UnigramSorted n.core.fst ∧ Alike A Ok (o'.static == o.static) m n := by
  obtain ⟨ordm, Vm, um, hi⟩ := hm.right
  have hVm : Vm = V ∧ um = u := by
    have h1 := ha.inv.wf.start
    have h2 := hi.wf.start
    rw [← backoff_like hm.core.fst, ← hm.core.fst.start, h1] at h2
    injection h2 with h2
    subst h2
    refine ⟨?_, rfl⟩
    obtain ⟨st, hst, ok⟩ := ha.inv.wf.exists_state ha.inv.wf.u_lt
    obtain ⟨st', hst', hl⟩ := hm.core.fst.states u st hst
    have ok' := hi.wf.states u st' hst'
    rw [← (ok.unigram rfl).2.1, ← (ok'.unigram rfl).2.1, hl.length]
  obtain ⟨rfl, rfl⟩ := hVm
  have hd : Dense m.symbols Vm := by rw [hm.symbols]; exact ha.dense
  have hsort := arcSort_like hi.wf h
  have wf : WF A Ok (arcSort m.core.fst) ordm m.core.maxOrder Vm um := (hi.wf.toWF0.arcSort).toWF hi.wf.V_pos
  have hb' : (initParameters A o').beta = (initParameters A o).beta := by rw [hp]
  have L : CountLaws A Ok (initParameters A o').beta := by rw [hb', ← ha.beta]; exact ha.inv.laws
  have hread : readVocab A (.fstFile (some (arcSort m.core.fst, m.symbols))) (vocab.map some)
      (arcSort m.core.fst, m.symbols) = pure (arcSort m.core.fst, m.symbols) := by
    cases vocab with
    | none => rfl
    | some ls =>
      cases ls with
      | nil => exact absurd rfl hv
      | cons l ls =>
        unfold readVocab
        simp only [Option.map_some]
        rw [addLines_known hd wf.start (l :: ls) hk]
        rfl
  obtain ⟨n, k1, k2, k3, k4, k5, k6, k7, k8, k9, k10⟩ := read_finish (o := o') L wf hd
    (src := .fstFile (some (arcSort m.core.fst, m.symbols))) (vocab := vocab.map some)
    (r0 := (arcSort m.core.fst, m.symbols)) rfl hread
  have hlike : FstLike A m.core.fst n.core.fst := by rw [k3]; exact hsort
  have hoa : ∀ s, s < m.core.fst.states.length → ordm s = ord s := fun s hs =>
    ord_unique ha.inv.wf hi.wf hm.core.fst s (by rw [hm.core.fst.length]; exact hs)
  have hlim := read_limit k1 k2
  have hmo : n.core.maxOrder = m.core.maxOrder := by
    rw [← hm.core.maxOrder]
    have hpo : (initParameters A o').maxOrder = (initParameters A o).maxOrder := by rw [hp]
    rw [hpo] at hlim
    exact ha.limit.unique hlim (by rw [hm.core.fst.length, hlike.length]) fun s hs => hoa s (by
      rw [← hm.core.fst.length]; exact hs)
  refine ⟨n, k1, .automaton wf hd (.inl rfl) hv k1, by rw [k3]; exact arcSort_unigram _, ⟨⟨ordm, Vm, um, hi⟩,
    ⟨ordm, Vm, um, k2⟩, ⟨hlike, ?_, hmo.symm⟩, ?_, ?_, k4, ?_⟩⟩
  · intro hfull
    have hst : o'.static = o.static := by simpa using hfull
    cases hs : o.static with
    | true =>
      rw [(read_parts k1).2 (hst.trans hs), ← hm.core.orders rfl]
      exact ha.orders hs
    | false =>
      have h1 : OrdersOk m.core ordm := hi.orders (by rw [hm.static rfl, ha.static, hs])
      have h2 : OrdersOk n.core ordm := k2.orders (by rw [k6, hst, hs])
      exact orders_eq h1 h2 hlike.length fun _ _ => rfl
  · rw [k7, hm.alpha, ha.alpha, hp]
  · rw [k8, hm.beta, ha.beta, hp]
  · intro hfull
    have hst : o'.static = o.static := by simpa using hfull
    rw [k6, hst, hm.static rfl, ha.static]

end Mozolm.Ppm
