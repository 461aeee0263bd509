import Verif.Ppm.ReadLemmas

/-!
# Histories of calls of the public functions

`Run encode m tr m'`: the calls in `tr`, each on a state that exists at that moment, made on a model in
state `m`, gave the answers in `tr` and left it in state `m'`.
-/

namespace Mozolm.Ppm
variable {A : Arith} {Ok : A.C → Prop}

/-- Calls of the public functions. -/
inductive Op where
  /-- `NextState(state, sym)` -/
  | next (s : Nat) (sym : Int)
  /-- `ExtractLMScores(state)` -/
  | scores (s : Nat)
  /-- `SymLMScore(state, sym)` -/
  | score (s : Nat) (sym : Int)
  /-- `UpdateLMCounts(state, syms, count)` -/
  | update (s : Nat) (syms : List Int) (count : Int)
  /-- `GetNegLogProbs(sym_indices)` -/
  | logProbs (syms : List Int)

/-- Their results. -/
inductive Answer (A : Arith) where
  | state (t : Int)
  | scores (r : Option (LMScores A.D))
  | cost (c : A.C)
  | ok (b : Bool)
  | costs (r : Option (List A.C))

/-- The state a call is made on exists. -/
def Op.Valid (m : Model A) : Op → Prop
  | .next s _ => s < m.core.fst.states.length
  | .scores s => s < m.core.fst.states.length
  | .score s _ => s < m.core.fst.states.length
  | .update s _ _ => s < m.core.fst.states.length
  | .logProbs _ => True

/-- results of a function wrapped as answers -/
def wrap {β γ : Type} (k : β → γ) (f : Model A → Except Fault (β × Model A)) : Model A → Except Fault (γ × Model A) :=
  fun m =>
    match f m with
    | .error e => .error e
    | .ok (b, m') => .ok (k b, m')

/-- One call. -/
def step (encode : Int → Str) : Op → Model A → Except Fault (Answer A × Model A)
  | .next s sym => wrap .state (nextState encode s sym)
  | .scores s => wrap .scores (extractLMScores s)
  | .score s sym => wrap .cost (symLMScore encode s sym)
  | .update s syms count => wrap .ok (updateLMCounts encode s syms count)
  | .logProbs syms => wrap .costs (getNegLogProbs syms)

/-- A history of calls with their answers. -/
inductive Run (encode : Int → Str) : Model A → List (Op × Answer A) → Model A → Prop
  | nil {m} : Run encode m [] m
  | cons {m op a m1 tr m2} : op.Valid m → step encode op m = .ok (a, m1) → Run encode m1 tr m2 →
      Run encode m ((op, a) :: tr) m2

/-- Models as left by `Read`: from a vocabulary with at least one character, or from a well-formed
automaton with a dense symbol table and perhaps a vocabulary. -/
inductive Initial (A : Arith) (Ok : A.C → Prop) (o : Options A.D) (m : Model A) : Prop
  | vocabulary {ls : List (List Str)} : (∃ c ∈ ls.flatten, c ∉ epsilonTable.map Prod.snd) →
      read A o .none (some (some ls)) = pure m → Initial A Ok o m
  | automaton {f : Fst A.C} {t : SymbolTable} {ord : Nat → Nat} {mo : Int} {V u : Nat} {src : Source A.C}
      {vocab : Option (List (List Str))} : WF A Ok f ord mo V u → Dense t V →
      (src = .fstFile (some (f, t)) ∨ src = .text (some (f, t))) → vocab ≠ some [] →
      read A o src (vocab.map some) = pure m → Initial A Ok o m

theorem Initial.inv {o : Options A.D} {m : Model A} (L : CountLaws A Ok (initParameters A o).beta)
    (h : Initial A Ok o m) : ∃ ord V u, Inv A Ok m ord V u := by
  cases h with
  | vocabulary h1 h2 =>
    obtain ⟨m', ord, V, k1, k2, _⟩ := read_vocab_ok (Ok := Ok) L h1
    have : m = m' := Res.pure_inj (h2.symm.trans k1)
    subst this
    exact ⟨ord, V, 1, k2⟩
  | automaton h1 h2 h3 h4 h5 =>
    obtain ⟨m', V', k1, k2, _⟩ := read_fst_ok (Ok := Ok) L h1 h2 h3 _ h4
    have : m = m' := Res.pure_inj (h5.symm.trans k1)
    subst this
    exact ⟨_, V', _, k2⟩

theorem Run.append {encode : Int → Str} {m m1 m2 : Model A} {tr tr' : List (Op × Answer A)}
    (h : Run encode m tr m1) (h' : Run encode m1 tr' m2) : Run encode m (tr ++ tr') m2 := by
  induction h with
  | nil => exact h'
  | cons hv hs _ ih => exact .cons hv hs (ih h')

/-- a model is static as configured -/
theorem Initial.static_eq {o : Options A.D} {m : Model A} (h : Initial A Ok o m) : m.static = o.static := by
  have key : ∀ (src : Source A.C) vocab, read A o src vocab = pure m → m.static = o.static := by
    intro src vocab hread
    unfold read at hread
    obtain ⟨r, _, hread⟩ := Res.bind_eq.mp hread
    obtain ⟨r2, _, hread⟩ := Res.bind_eq.mp hread
    obtain ⟨c, h3, hread⟩ := Res.bind_eq.mp hread
    rw [← Res.pure_inj hread]; rfl
  cases h with
  | vocabulary _ h2 => exact key _ _ h2
  | automaton _ _ _ _ h5 => exact key _ _ h5

/-! ## Effects -/

/-- A call whose answer and effect on the automaton depend on everything but the cache. -/
def Effect {β : Type} (f : Model A → Except Fault (β × Model A)) (g : Sig A) (b : β) (c' : Core A.C) : Prop :=
  ∀ m : Model A, m.sig = g → CacheOk m None' →
    ∃ m', f m = .ok (b, m') ∧ Params m m' ∧ m'.core = c' ∧ CacheOk m' None'

theorem Query.effect {β : Type} {f : Model A → Except Fault (β × Model A)} {g : Sig A} {b : β}
    (h : Query f g b) : Effect f g b g.core := by
  intro m hm hc
  obtain ⟨m', e1, e2, e3⟩ := h m hm hc
  exact ⟨m', e1, e2.params, by rw [e2.core]; exact sig_core hm, e3⟩

theorem Effect.wrap {β γ : Type} {f : Model A → Except Fault (β × Model A)} {g : Sig A} {b : β} {c' : Core A.C}
    (k : β → γ) (h : Effect f g b c') : Effect (wrap k f) g (k b) c' := by
  intro m hm hc
  obtain ⟨m', e1, e2⟩ := h m hm hc
  refine ⟨m', ?_, e2⟩
  unfold Ppm.wrap
  rw [e1]

theorem Action.effect_bind {β γ : Type} {f : PM A β} {k : β → PM A γ} {g : Sig A} {b : β} {x : Option γ}
    {c1 c2 : Core A.C} (h : Action f g b c1) (h' : Effect (k b) { g with core := c1 } x c2) :
    Effect (f >>= k) g x c2 := by
  intro m hm hc
  obtain ⟨m1, e1, e2, e3, e4⟩ := h m hm hc
  obtain ⟨m2, f1, f2, f3, f4⟩ := h' m1 (by rw [e2.sig, e3, hm]) e4
  exact ⟨m2, by rw [PM.bind_some e1]; exact f1, e2.trans f2, f3, f4⟩

theorem Effect.fail_bind {β γ : Type} {f : PM A β} {k : β → PM A γ} {g : Sig A} {c1 : Core A.C}
    (h : Effect f g none c1) : Effect (f >>= k) g none c1 := by
  intro m hm hc
  obtain ⟨m1, e1, e2⟩ := h m hm hc
  exact ⟨m1, PM.bind_none e1, e2⟩

theorem reads_action {β : Type} {h : Model A → Res β} {g : Sig A} {b : β}
    (hb : ∀ m : Model A, m.sig = g → h m = pure b) : Action (PM.reads h) g b g.core :=
  fun m hm hc => ⟨m, PM.reads_eq (hb m hm), Params.refl m, sig_core hm, hc⟩

theorem verified_fail {α : Type} {v : List α} {y : Int} (h : y < 0 ∨ (v.length : Int) ≤ y) :
    verified v y = Res.fail := by
  unfold verified
  by_cases h0 : y < 0
  · rw [if_pos h0]
  · rw [if_neg h0, if_pos (by omega)]

theorem whenM_action {b : Bool} {x : PM A Unit} {g : Sig A} {c' : Core A.C}
    (h1 : b = true → Action x g () c') (h2 : b = false → c' = g.core) : Action (whenM b x) g () c' := by
  cases b with
  | true => exact h1 rfl
  | false => rw [h2 rfl]; exact fun m hm hc => ⟨m, rfl, Params.refl m, sig_core hm, hc⟩

/-- What `GetNegLogProbs` of a model that learns does from a state: the cost of each symbol, then an observation of
it; nothing more from the first symbol that does not exist. -/
inductive Scored (A : Arith) (Ok : A.C → Prop) (V u : Nat) (alpha beta : A.D) :
    Core A.C → (Nat → Nat) → Nat → List Int → Option (List A.C) → Core A.C → (Nat → Nat) → Prop
  | nil {c ord s} : Scored A Ok V u alpha beta c ord s [] (some []) c ord
  | stop {c ord s y ys} : ¬ (0 ≤ y ∧ y ≤ (V : Int)) → Scored A Ok V u alpha beta c ord s (y :: ys) none c ord
  | cons {c ord s d w c1 ord1 t r c2 ord2} {y : Nat} {ys : List Int} : y ≤ V → s < c.fst.states.length →
      Ideal A c.fst alpha beta s d → d.costs[y]? = some w →
      Observed A Ok c c1 ord ord1 V u s y → target c1.fst s y = some t →
      Scored A Ok V u alpha beta c1 ord1 t ys r c2 ord2 →
      Scored A Ok V u alpha beta c ord s ((y : Int) :: ys) (r.map fun cs => w :: cs) c2 ord2

/-- `GetNegLogProbs` from a state: an observation per symbol unless static. -/
theorem getNegLogProbsFrom_effect {V u : Nat} (ys : List Int) :
    ∀ {g : Sig A} {ord : Nat → Nat}, CountLaws A Ok g.beta →
    WF A Ok g.core.fst ord g.core.maxOrder V u → (g.static = false → OrdersOk g.core ord) →
    ∀ {s : Nat}, s < g.core.fst.states.length →
    ∃ (r : Option (List A.C)) (c' : Core A.C) (ord' : Nat → Nat) (h : List (Nat × Int)),
      Observes A Ok V u g.core ord h c' ord' ∧ (g.static = true → c' = g.core ∧ ord' = ord) ∧
      Effect (getNegLogProbsFrom (s : Int) ys) g r c' ∧
      (g.static = false → Scored A Ok V u g.alpha g.beta g.core ord s ys r c' ord') := by
  induction ys with
  | nil =>
    intro g ord _ _ _ s _
    exact ⟨some [], g.core, ord, [], .nil, fun _ => ⟨rfl, rfl⟩,
      fun m hm hc => ⟨m, rfl, Params.refl m, sig_core hm, hc⟩, fun _ => .nil⟩
  | cons y ys ih =>
    intro g ord L wf ho s hs
    obtain ⟨d, hd, hsz⟩ := wf.ideal L g.alpha s hs
    by_cases hy : 0 ≤ y ∧ y ≤ V
    · obtain ⟨k, rfl⟩ := Int.eq_ofNat_of_zero_le hy.1
      obtain ⟨w, hw⟩ := exists_getElem?_of_lt (l := d.costs) (i := k) (by rw [hsz.2.2]; omega)
      have q1 := (getNegLogProb_query L wf hs hd hw).action
      -- the conditional observation
      have hobs : ∃ (c1 : Core A.C) (ord1 : Nat → Nat) (h1 : List (Nat × Int)),
          Observes A Ok V u g.core ord h1 c1 ord1 ∧ (g.static = true → c1 = g.core ∧ ord1 = ord) ∧
          (g.static = false → Observed A Ok g.core c1 ord ord1 V u s k) ∧
          Action (whenM (!g.static) (do
            let o ← getArcOriginState (s : Int) (k : Int)
            let _ ← observe (s : Int) o (k : Int)
            pure ())) g () c1 := by
        cases hst : g.static with
        | true =>
          exact ⟨g.core, ord, [], .nil, fun _ => ⟨rfl, rfl⟩, fun h => by simp at h, whenM_action (fun h => by simp at h) (fun _ => rfl)⟩
        | false =>
          obtain ⟨o, horig⟩ := wf.origin L hy.1 hy.2 s hs
          have p1 := (getArcOrigin_query L wf hs hy.1 hy.2 horig).action
          obtain ⟨t1, c1, ord1, e1, _, e3⟩ := observe_action L wf (ho hst) hs hy.1 hy.2 horig
          have p3 : Action (pure () : PM A Unit) { g with core := c1 } () c1 :=
            fun m hm hc => ⟨m, rfl, Params.refl m, sig_core hm, hc⟩
          exact ⟨c1, ord1, _, .cons hs hy.1 hy.2 e1 .nil, (fun h => by simp at h), fun _ => e1,
            whenM_action (fun _ => Action.bind p1 (Action.bind e3 p3)) (fun h => by simp at h)⟩
      obtain ⟨c1, ord1, h1, o1, o2, oobs, o3⟩ := hobs
      have wf1 := o1.wf wf
      have hlen := o1.len
      obtain ⟨o, t, t1, t2, t3, t4⟩ := getDestination_query (g := { g with core := c1 }) L wf1 (s := s)
        (by simp only; omega) hy.1 hy.2
      have ho1 : g.static = false → OrdersOk c1 ord1 := fun h => o1.orders (ho h)
      obtain ⟨r, c2, ord2, h2, i1, i2, i3, i4⟩ := ih (g := { g with core := c1 }) L wf1 ho1 t3
      have hlast : Effect (getNegLogProbsFrom (t : Int) ys >>= fun cs => pure (w :: cs)) { g with core := c1 }
          (r.map fun cs => w :: cs) c2 := by
        intro m hm hc
        obtain ⟨m', f1, f2, f3, f4⟩ := i3 m hm hc
        refine ⟨m', ?_, f2, f3, f4⟩
        cases r with
        | none => exact PM.bind_none f1
        | some cs => rw [PM.bind_some f1]; rfl
      have hall : Effect (getNegLogProb (s : Int) (k : Int) >>= fun c => PM.reads (fun m => pure m.static) >>= fun static =>
          whenM (!static) (do
            let o ← getArcOriginState (s : Int) (k : Int)
            let _ ← observe (s : Int) o (k : Int)
            pure ()) >>= fun _ => getDestinationState (s : Int) (k : Int) >>= fun d =>
          getNegLogProbsFrom d ys >>= fun cs => pure (c :: cs)) g (r.map fun cs => w :: cs) c2 :=
        Action.effect_bind q1 (Action.effect_bind (b := g.static) (reads_action (fun m hm => by rw [sig_static hm]))
          (Action.effect_bind o3 (Action.effect_bind t4.action hlast)))
      refine ⟨r.map fun cs => w :: cs, c2, ord2, h1 ++ h2, o1.append i1, ?_, hall, ?_⟩
      · intro hst
        obtain ⟨e1, e2⟩ := i2 hst
        obtain ⟨e3, e4⟩ := o2 hst
        exact ⟨e1.trans e3, e2.trans e4⟩
      · intro hst
        have hO := oobs hst
        have hos : o = s := by
          have hc := hO.count_self s .here
          cases t1 with
          | here _ => rfl
          | lower hn _ _ => simp only at hn; rw [hc] at hn; cases hn
        subst hos
        exact .cons (by omega) hs hd hw hO t2 (i4 hst)
    · have hfail : Effect (getNegLogProb (A := A) (s : Int) y) g none g.core := by
        intro m hm hc
        obtain ⟨e, m', e1, e2, e3, e4⟩ := ensure_query L wf hs hd m hm hc
        refine ⟨m', ?_, e3.params, by rw [e3.core]; exact sig_core hm, e4⟩
        unfold getNegLogProb
        rw [PM.bind_some e1]
        unfold PM.reads
        rw [verified_fail (by rw [e2, hsz.2.2]; omega)]; rfl
      refine ⟨none, g.core, ord, [], .nil, fun _ => ⟨rfl, rfl⟩, ?_, fun _ => .stop hy⟩
      unfold getNegLogProbsFrom
      exact hfail.fail_bind

/-- `UpdateLMCounts` returns true. -/
theorem updateLMCounts_effect {V u : Nat} {g : Sig A} {ord : Nat → Nat} (L : CountLaws A Ok g.beta)
    (wf : WF A Ok g.core.fst ord g.core.maxOrder V u) (ho : g.static = false → OrdersOk g.core ord)
    (hl : ∀ str, g.symbols.findLabel str ≤ V) (encode : Int → Str) {s : Nat} (hs : s < g.core.fst.states.length)
    (syms : List Int) (count : Int) :
    ∃ (c' : Core A.C) (ord' : Nat → Nat) (h : List (Nat × Int)), Observes A Ok V u g.core ord h c' ord' ∧
      (g.static = true ∨ count ≤ 0 → c' = g.core ∧ ord' = ord) ∧
      Effect (updateLMCounts encode (s : Int) syms count) g true c' := by
  by_cases hno : (g.static || decide (count ≤ 0)) = true
  · refine ⟨g.core, ord, [], .nil, fun _ => ⟨rfl, rfl⟩, ?_⟩
    intro m hm hc
    refine ⟨m, ?_, Params.refl m, sig_core hm, hc⟩
    unfold updateLMCounts
    rw [sig_static hm, if_pos hno]
  · have hst : g.static = false := by
      cases h : g.static with
      | false => rfl
      | true => rw [h] at hno; simp at hno
    have hcount : 0 < count := by
      rw [hst] at hno; simp at hno; exact hno
    obtain ⟨c', ord', h, h1, h2⟩ := updateSymbols_action encode hcount syms L wf (ho hst) hl hs
    refine ⟨c', ord', h, h1, ?_, ?_⟩
    · rintro (h | h)
      · rw [hst] at h; cases h
      · omega
    · intro m hm hc
      obtain ⟨m', e1, e2⟩ := h2 m hm hc
      refine ⟨m', ?_, e2⟩
      unfold updateLMCounts
      rw [sig_static hm, if_neg hno]
      exact orElse_some (f := fun _ => true) e1

/-- Every call on an existing state succeeds; its answer and its effect on the automaton do not depend
on the cache; the automaton changes by observations only. -/
theorem step_effect {V u : Nat} {g : Sig A} {ord : Nat → Nat} (L : CountLaws A Ok g.beta)
    (wf : WF A Ok g.core.fst ord g.core.maxOrder V u) (ho : g.static = false → OrdersOk g.core ord)
    (hl : ∀ str, g.symbols.findLabel str ≤ V) (encode : Int → Str) {op : Op} {m : Model A} (hm : m.sig = g)
    (hv : op.Valid m) :
    ∃ (a : Answer A) (c' : Core A.C) (ord' : Nat → Nat) (h : List (Nat × Int)),
      Observes A Ok V u g.core ord h c' ord' ∧ (g.static = true → c' = g.core ∧ ord' = ord) ∧
      Effect (step encode op) g a c' := by
  have hcore := sig_core hm
  cases op with
  | next s sym =>
    simp only [Op.Valid, hcore] at hv
    obtain ⟨t, _, _, h3⟩ := nextState_query L wf hl encode sym hv
    exact ⟨.state t, g.core, ord, [], .nil, fun _ => ⟨rfl, rfl⟩, h3.effect.wrap Answer.state⟩
  | scores s =>
    simp only [Op.Valid, hcore] at hv
    obtain ⟨d, hd, hsz⟩ := wf.ideal L g.alpha s hv
    obtain ⟨r, hr, _⟩ := fill_ok hsz g.symbols
    exact ⟨.scores (some r), g.core, ord, [], .nil, fun _ => ⟨rfl, rfl⟩, (extract_query L wf hv hd hr).effect.wrap Answer.scores⟩
  | score s sym =>
    simp only [Op.Valid, hcore] at hv
    obtain ⟨d, hd, hsz⟩ := wf.ideal L g.alpha s hv
    obtain ⟨w, hw, _⟩ := symLMScore_query L wf hl encode sym hv hd
    exact ⟨.cost w, g.core, ord, [], .nil, fun _ => ⟨rfl, rfl⟩, hw.effect.wrap Answer.cost⟩
  | update s syms count =>
    simp only [Op.Valid, hcore] at hv
    obtain ⟨c', ord', h, h1, h2, h3⟩ := updateLMCounts_effect L wf ho hl encode hv syms count
    exact ⟨.ok true, c', ord', h, h1, fun h => h2 (.inl h), h3.wrap Answer.ok⟩
  | logProbs syms =>
    obtain ⟨r, c', ord', h, h1, h2, h3, _⟩ := getNegLogProbsFrom_effect syms L wf ho wf.start_lt
    refine ⟨.costs r, c', ord', h, h1, h2, Effect.wrap Answer.costs (b := r) (f := getNegLogProbs syms) ?_⟩
    intro m hm hc
    obtain ⟨m', e1, e2⟩ := h3 m hm hc
    refine ⟨m', ?_, e2⟩
    unfold getNegLogProbs
    rw [sig_core hm]; exact e1

theorem Inv.after {m m' : Model A} {ord ord' : Nat → Nat} {V u : Nat} {h : List (Nat × Int)}
    (hi : Inv A Ok m ord V u) (hobs : Observes A Ok V u m.core ord h m'.core ord') (hp : Params m m')
    (hc : CacheOk m' None') : Inv A Ok m' ord' V u :=
  ⟨by rw [hp.beta]; exact hi.laws, hobs.wf hi.wf, fun hs => hobs.orders (hi.orders (by rw [← hp.static]; exact hs)),
    hc, by rw [hp.symbols]; exact hi.labels⟩

/-- The invariant is kept by every call. -/
theorem step_inv {m : Model A} {ord : Nat → Nat} {V u : Nat} (hi : Inv A Ok m ord V u) (encode : Int → Str)
    {op : Op} (hv : op.Valid m) :
    ∃ (a : Answer A) (m' : Model A) (ord' : Nat → Nat) (h : List (Nat × Int)),
      step encode op m = .ok (a, m') ∧ Inv A Ok m' ord' V u ∧ Params m m' ∧
      Observes A Ok V u m.core ord h m'.core ord' ∧ (m.static = true → m'.core = m.core ∧ ord' = ord) := by
  obtain ⟨a, c', ord', h, h1, h2, h3⟩ := step_effect (g := m.sig) hi.laws hi.wf hi.orders hi.labels encode rfl hv
  obtain ⟨m', e1, e2, e3, e4⟩ := h3 m rfl hi.cache
  subst e3
  exact ⟨a, m', ord', h, e1, hi.after h1 e2 e4, e2, h1, h2⟩

theorem run_inv {m m' : Model A} {encode : Int → Str} {tr : List (Op × Answer A)} (hr : Run encode m tr m') :
    ∀ {ord : Nat → Nat} {V u : Nat}, Inv A Ok m ord V u →
    ∃ (ord' : Nat → Nat) (h : List (Nat × Int)), Inv A Ok m' ord' V u ∧ Params m m' ∧
      Observes A Ok V u m.core ord h m'.core ord' ∧ (m.static = true → m'.core = m.core ∧ ord' = ord) := by
  induction hr with
  | nil => intro ord V u hi; exact ⟨ord, [], hi, Params.refl _, .nil, fun _ => ⟨rfl, rfl⟩⟩
  | cons hv hs _ ih =>
    intro ord V u hi
    obtain ⟨a', m1', ord1, h1, e1, e2, e3, e4, e5⟩ := step_inv hi encode hv
    rw [hs] at e1
    injection e1 with e1
    injection e1 with _ e1
    subst e1
    obtain ⟨ord2, h2, f2, f3, f4, f5⟩ := ih e2
    refine ⟨ord2, h1 ++ h2, f2, e3.trans f3, e4.append f4, ?_⟩
    intro hst
    obtain ⟨g1, g2⟩ := f5 (by rw [e3.static]; exact hst)
    obtain ⟨g3, g4⟩ := e5 hst
    exact ⟨g1.trans g3, g2.trans g4⟩

theorem Op.valid_sig {m m' : Model A} (h : m.core = m'.core) (op : Op) (hv : op.Valid m) : op.Valid m' := by
  cases op <;> simp only [Op.Valid] at hv ⊢ <;> first | trivial | (rw [← h]; exact hv)

/-- Two models that differ in their caches only give the same answers for ever. -/
theorem run_sig {m m' : Model A} {encode : Int → Str} {tr : List (Op × Answer A)} (hr : Run encode m tr m') :
    ∀ {n : Model A} {ord : Nat → Nat} {V u : Nat}, Inv A Ok m ord V u → Inv A Ok n ord V u → n.sig = m.sig →
    ∃ n', Run encode n tr n' ∧ n'.sig = m'.sig := by
  induction hr with
  | nil => intro n ord V u _ _ hs; exact ⟨n, .nil, hs⟩
  | cons hv hs hrest ih =>
    rename_i m op a m1 tr m2
    intro n ord V u hi hj hsig
    obtain ⟨a', c', ord', h, h1, _, h3⟩ := step_effect (g := m.sig) hi.laws hi.wf hi.orders hi.labels encode rfl hv
    obtain ⟨m1', e1, e2, e3, e4⟩ := h3 m rfl hi.cache
    obtain ⟨n1, f1, f2, f3, f4⟩ := h3 n hsig hj.cache
    rw [hs] at e1
    injection e1 with e1
    injection e1 with ea e1
    subst e1; subst ea
    have hsig' : n1.sig = m1.sig := by rw [e2.sig, f2.sig, e3, f3, hsig]
    have hi' : Inv A Ok m1 ord' V u := hi.after (by rw [e3]; exact h1) e2 e4
    have hj' : Inv A Ok n1 ord' V u := hj.after (by rw [f3, sig_core hsig]; exact h1) f2 f4
    obtain ⟨n', k1, k2⟩ := ih hi' hj' hsig'
    exact ⟨n', .cons (Op.valid_sig (sig_core hsig).symm op hv) f1 k1, k2⟩

/-- The model with an empty cache of any size. -/
def Model.uncached (m : Model A) (size : Int) : Model A :=
  { m with
    maxCache := size
    counter := 0
    index := List.replicate m.core.fst.states.length (-1)
    cache := [] }

theorem Inv.uncached {m : Model A} {ord : Nat → Nat} {V u : Nat} (hi : Inv A Ok m ord V u) {size : Int}
    (h : 2 ≤ size) : Inv A Ok (m.uncached size) ord V u := by
  refine ⟨hi.laws, hi.wf, hi.orders, ⟨⟨?_, ?_, ?_, ?_, h⟩, ?_, ?_, ?_⟩, hi.labels⟩
  · simp [Model.uncached]
  · intro i e he; simp [Model.uncached] at he
  · intro s i hs
    left
    have := List.mem_of_getElem? hs
    exact (List.mem_replicate.mp this).2
  · simp only [Model.uncached, List.length_nil]; omega
  · intro e he; cases he
  · intro e he; cases he
  · intro e he; cases he

end Mozolm.Ppm
