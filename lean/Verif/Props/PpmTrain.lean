import Verif.Ppm.TrainWF
import Verif.Ppm.Context
import Verif.Props.PpmNumeric

/-!
# C67, C68, C69: PPM models trained from text (exact arithmetic)

`Trained`, `TextProb` and `LongestContext` are in `Ppm/TrainSpec.lean`, and so is `CounterOk`, the contract of
the OpenGrm counter.  `labelLines t lines` are the label sequences of the lines that are not empty.
-/

namespace Mozolm.Ppm
open XR Classical
open scoped BigOperators
variable {o : Options XR} {counter : Nat → List (List Int) → Fst XR} {order : Nat} {lines : List (List Str)}

theorem order_eq (horder : (order : Int) = if o.maxOrder > 0 then o.maxOrder else 4) :
    (initParameters Arith.xr o).maxOrder.toNat = order := by
  unfold initParameters
  simp only
  rw [← horder]; simp

theorem order_pos (horder : (order : Int) = if o.maxOrder > 0 then o.maxOrder else 4) : 1 ≤ order := by
  by_cases h : o.maxOrder > 0
  · rw [if_pos h] at horder; omega
  · rw [if_neg h] at horder; omega

theorem labelLines_ne {t : SymbolTable} (hne : ∃ l ∈ lines, l ≠ []) : labelLines t lines ≠ [] := by
  obtain ⟨l, h1, h2⟩ := hne
  exact List.ne_nil_of_mem (mem_labelLines.mpr ⟨l, h1, h2, rfl⟩)

theorem Symbols.counts_ok {t : SymbolTable} {V : Nat} (hs : Symbols lines t V) (hc : CounterOk counter) (ho : 1 ≤ order)
    (hne : ∃ l ∈ lines, l ≠ []) : ∃ ctxs, Counted order (labelLines t lines) ctxs (counter order (labelLines t lines)) := by
  refine hc order _ ho (labelLines_ne hne) fun w hw => ⟨?_, fun x hx => (hs.range w hw x hx).1⟩
  obtain ⟨l, _, h2, rfl⟩ := mem_labelLines.mp hw
  simpa using h2

theorem trainLines_eq {k : List (List Int) → Fst XR} (hne : lines ≠ []) : trainLines k lines = trainFromText k lines := by
  cases lines with
  | nil => exact absurd rfl hne
  | cons l ls => rfl

/-! ## C67 -/

/-- **C67** Reading a text with some character succeeds for a maximal order of at least two, with or without
a vocabulary: the symbols are the characters of both, the states are exactly the contexts of the text shorter
than the order, with the counts that update exclusion prescribes, and the stored totals are those of the counts. -/
theorem C67_training (hc : CounterOk counter) (ha : o.alpha ≠ .nan) (hb : o.beta ≠ .nan)
    (horder : (order : Int) = if o.maxOrder > 0 then o.maxOrder else 4) (h2 : 2 ≤ order)
    (hne : ∃ l ∈ lines, l ≠ []) (heps : epsilonName ∉ lines.flatten) {vocab : Option (List (List Str))}
    (hv : vocab ≠ some []) :
    ∃ (m : Model Arith.xr) (ctxs : List (List Int)), readText counter o (some lines) (vocab.map some) = pure m ∧
      Trained order (labelLines m.symbols lines) ctxs m.chars m.core.fst ∧
      Dense m.symbols m.chars ∧
      (∀ c, c ∈ m.symbols.map Prod.snd ↔ c = epsilonName ∨ c ∈ lines.flatten ∨ c ∈ (vocab.getD []).flatten) ∧
      (∀ w ∈ labelLines m.symbols lines, ∀ x ∈ w, 0 < x ∧ x ≤ m.chars) ∧
      Totals m.core.fst m.chars ∧ Initial Arith.xr OkR o m := by
  obtain ⟨t, V, he, hs⟩ := encode_symbols heps
  obtain ⟨ctxs, hcnt⟩ := hs.counts_ok (order := order) hc (by omega) hne
  obtain ⟨g, k1, k2, k3, k4⟩ := trainFromText_ok (counter := counter order) hs he h2 hne hcnt
  have htf : TrainedFrom order (labelLines t lines) ctxs V (arcSort (counter order (labelLines t lines))) g :=
    ⟨hcnt.sorted, hs.textOk h2 hne, hs.range, fun y h1 h2 => hs.onto h1 h2, k2, k3, k4⟩
  obtain ⟨u, hu, _⟩ := htf.unigram
  have wf := htf.wf hu
  obtain ⟨m, V', r1, r2, r3, _, _, r4, _⟩ := read_fst_ok (A := Arith.xr) (Ok := OkR) (o := o) (laws_of o ha hb) wf hs.dense
    (src := .text (some (g, t))) (.inr rfl) vocab hv
  have hV : m.chars = V' := r3.dense.chars
  have hlab : labelLines m.symbols lines = labelLines t lines := by
    unfold labelLines
    refine List.map_congr_left fun l hl => List.map_congr_left fun c hcl => ?_
    obtain ⟨l', hl'⟩ := r3.kept
    have hcf : c ∈ lines.flatten := List.mem_flatten.mpr ⟨l, (List.mem_filter.mp hl).1, hcl⟩
    rw [hl', findLabel_append ((hs.symbols c).mpr (.inr hcf))]
  have hlines : lines ≠ [] := by
    obtain ⟨l, h1, _⟩ := hne
    exact List.ne_nil_of_mem h1
  refine ⟨m, ctxs, ?_, ?_, by rw [hV]; exact r3.dense, ?_, ?_, ?_, .automaton wf hs.dense (.inr rfl) hv r1⟩
  · unfold readText
    simp only
    rw [order_eq horder, trainLines_eq hlines, k1, Res.pure_bind]
    exact r1
  · rw [hlab, hV]
    exact htf.trained.grown hs.range hu wf r4 r3.le
  · intro c
    rw [r3.symbols, hs.symbols, or_assoc]
  · rw [hlab, hV]
    intro w hw x hx
    have := hs.range w hw x hx
    have := r3.le
    omega
  · rw [hV]
    exact r4.totals wf r2.wf htf.totals

/-- **C67** A text in which the reserved symbol is a character is refused. -/
theorem C67_reserved (horder : (order : Int) = if o.maxOrder > 0 then o.maxOrder else 4)
    (heps : epsilonName ∈ lines.flatten) (vocab : Option (Option (List (List Str)))) :
    readText counter o (some lines) vocab = .fail := by
  have hlines : lines ≠ [] := by rintro rfl; cases heps
  unfold readText
  simp only
  rw [order_eq horder, trainLines_eq hlines]
  unfold trainFromText
  rw [encodeLines_fail lines epsilonTable_dense ⟨[], by simp⟩ heps]
  rfl

/-- the counter's automaton of order one has no backoffs -/
theorem order_one {ws ctxs : List (List Int)} {f : Fst XR} (h : CountedSorted 1 ws ctxs f) (s : Nat) : backoff f s = none := by
  cases hb : backoff f s with
  | none => rfl
  | some b =>
    exfalso
    obtain ⟨st, hst⟩ := exists_getElem?_of_lt (backoff_lt hb)
    obtain ⟨c, hc, hctx⟩ := h.ctx hst
    have := ((h.backoff_iff hc b).mp hb).1
    have h1 := hctx.1
    exact this (List.length_eq_zero_iff.mp (by omega))

/-- **C67** A model of order one cannot be trained: `Read` reports an error. -/
theorem C67_order_one (hc : CounterOk counter) (h1 : o.maxOrder = 1) (hne : ∃ l ∈ lines, l ≠ [])
    (vocab : Option (Option (List (List Str)))) : readText counter o (some lines) vocab = .fail := by
  have horder : ((1 : Nat) : Int) = if o.maxOrder > 0 then o.maxOrder else 4 := by rw [h1]; rfl
  by_cases heps : epsilonName ∈ lines.flatten
  · exact C67_reserved horder heps vocab
  obtain ⟨t, V, he, hs⟩ := encode_symbols heps
  obtain ⟨ctxs, hcnt⟩ := hs.counts_ok (order := 1) hc (by omega) hne
  have hlines : lines ≠ [] := by
    obtain ⟨l, h1, _⟩ := hne
    exact List.ne_nil_of_mem h1
  unfold readText
  simp only
  rw [order_eq horder, trainLines_eq hlines]
  have hfail : trainFromText (counter 1) lines = .fail := by
    have h := hcnt.sorted
    have hT := hs.textOk (order := 2) (by omega) hne
    have hsym : ∃ x, 0 < x ∧ 0 < occurrences (labelLines t lines) [] x := hT.symbol
    unfold trainFromText
    rw [he, Res.pure_bind]
    simp only
    generalize arcSort (counter 1 (labelLines t lines)) = f at h ⊢
    have hnb : ∀ x, ¬ BackedOff f x := by
      rintro x ⟨s, hs⟩
      rw [order_one h s] at hs; cases hs
    have hroot : Rooted f := by
      refine ⟨?_, fun s b hb => by rw [order_one h s] at hb; cases hb⟩
      intro s st hst hnil
      obtain ⟨c, hc, hctx⟩ := h.ctx hst
      have hc0 : c = [] := List.length_eq_zero_iff.mp (by have := hctx.1; omega)
      subst hc0
      obtain ⟨x, hx1, hx2⟩ := hsym
      obtain ⟨t', _, ht', _⟩ := h.index (hctx.next (by omega) hx2)
      have := (h.arcs s [] st hc hst ⟨x, costOf (occurrences (labelLines t lines) [] x), t'⟩).mpr (.inr ⟨hx1, hx2, ht', rfl⟩)
      rw [hnil] at this; cases this
    have hcable : Countable f :=
      ⟨hroot, fun s st hst => h.label_nonneg hst, fun s st hst => h.labels_nodup hst, fun s st hst => h.eps hst,
        fun x st hb _ => absurd hb (hnb x), fun x st hb _ => absurd hb (hnb x)⟩
    obtain ⟨g, g1, g2, g3⟩ := calculateUpdateExclusions_ok hcable
    rw [g1, Res.pure_bind]
    have hget : ∀ x : Nat, g.states[x]? = f.states[x]? := by
      intro x
      rw [g3]
      cases f.states[x]? with
      | none => rfl
      | some st => simp only [Option.map_some, if_neg (hnb x)]
    have hgf : g.states = f.states := List.ext_getElem? hget
    have : g = f := by
      cases g; cases f
      simp only at g2 hgf
      rw [g2, hgf]
    subst this
    unfold addPriorCounts
    rw [hroot.getBackoff (by rw [h.len]; exact lt_of_getElem?_eq_some h.start), Res.pure_bind, order_one h]
    rfl
  rw [hfail]; rfl

/-- **C67** A text file without lines: an error with a vocabulary, undefined behaviour without one. -/
theorem C67_no_lines :
    (∀ vocab, readText counter o (some []) (some vocab) = .fail) ∧
    readText counter o (some []) none = .fault .ub := by
  constructor
  · intro vocab
    unfold readText trainLines read
    simp only
    rw [Res.pure_bind]
    rcases vocab with _ | _ | ⟨l, ls⟩
    · rfl
    · rfl
    · rfl
  · rfl

/-- **C67** Only empty lines: if the automaton the counter then returns has a state without arcs before any
state with a backoff, as OpenGrm's unigram state is, its first arc is read all the same. -/
theorem C67_blank_lines (horder : (order : Int) = if o.maxOrder > 0 then o.maxOrder else 4)
    (hne : lines ≠ []) (hl : ∀ l ∈ lines, l = []) {fin : XR} {sts : List (FState XR)}
    (hcnt : (counter order []).states = ⟨fin, []⟩ :: sts) (vocab : Option (Option (List (List Str)))) :
    readText counter o (some lines) vocab = .fault .ub := by
  unfold readText
  simp only
  rw [order_eq horder, trainLines_eq hne]
  have he : encodeLines lines epsilonTable = pure ([], epsilonTable) := by
    clear hne
    induction lines with
    | nil => rfl
    | cons l ls ih =>
      unfold encodeLines
      rw [if_pos (hl l (by simp))]
      exact ih (fun x hx => hl x (List.mem_cons_of_mem _ hx))
  unfold trainFromText
  rw [he, Res.pure_bind]
  unfold calculateUpdateExclusions determineBackoffStates arcSort
  rw [hcnt]
  rfl

/-! ## C68 -/

section
variable {ws ctxs : List (List Int)} {V : Nat} {f : Fst XR}

theorem Trained.cnt (h : Trained order ws ctxs V f) {s : Nat} {c : List Int} (hc : ctxs[s]? = some c) {y : Nat} (hy : y ≤ V) :
    cnt f s y = (trainedCount order ws c (y : Nat) : ℝ) := by
  unfold Ppm.cnt
  rw [h.counts s c hc y hy]
  by_cases h0 : trainedCount order ws c y = 0
  · rw [if_pos h0, h0]; simp
  · rw [if_neg h0]
    exact value_costOf (by positivity)

theorem Trained.total (h : Trained order ws ctxs V f) {s : Nat} {c : List Int} (hc : ctxs[s]? = some c) :
    total f V s = ∑ z ∈ Finset.range (V + 1), (trainedCount order ws c (z : Nat) : ℝ) :=
  Finset.sum_congr rfl fun y hy => h.cnt hc (by rw [Finset.mem_range] at hy; omega)

theorem Trained.distinct (h : Trained order ws ctxs V f) {s : Nat} {c : List Int} (hc : ctxs[s]? = some c) :
    distinct f V s = ((Finset.range (V + 1)).filter fun z => 0 < trainedCount order ws c (z : Nat)).card := by
  unfold Ppm.distinct
  congr 1
  refine Finset.filter_congr fun y hy => ?_
  rw [h.counts s c hc y (by rw [Finset.mem_range] at hy; omega)]
  by_cases h0 : trainedCount order ws c y = 0
  · rw [if_pos h0]; simp [h0]
  · rw [if_neg h0]; simp; omega

theorem Trained.index (h : Trained order ws ctxs V f) {c : List Int} (hc : IsContext order ws c) :
    ∃ s : Nat, ctxs[s]? = some c := List.getElem?_of_mem ((h.contexts c).mpr hc)

theorem Trained.isContext (h : Trained order ws ctxs V f) {s : Nat} {c : List Int} (hc : ctxs[s]? = some c) :
    IsContext order ws c := (h.contexts c).mp (List.mem_of_getElem? hc)

theorem Trained.context (h : Trained order ws ctxs V f) {s : Nat} (hs : s < f.states.length) :
    ∃ c : List Int, ctxs[s]? = some c := exists_getElem?_of_lt (by rw [← h.len]; exact hs)

theorem Trained.textProb (h : Trained order ws ctxs V f) (hr : ∀ w ∈ ws, ∀ x ∈ w, 0 < x ∧ x ≤ (V : Int)) {alpha beta p : ℝ}
    {y s : Nat} (hy : y ≤ V) (hp : Prob f alpha beta V y s p) :
    ∀ {c : List Int}, ctxs[s]? = some c → TextProb order ws alpha beta V y c p := by
  induction hp with
  | @unigram s hb =>
    intro c hc
    by_cases hne : c = []
    · subst hne
      rw [h.cnt hc hy, h.total hc]
      exact .nil
    · exfalso
      obtain ⟨b, hb'⟩ := h.index ((h.isContext hc).prefix (List.dropLast_prefix c))
      rw [(h.backoff s c hc b).mpr ⟨hne, hb'⟩] at hb; cases hb
  | @unseen s b p hb h0 _ _ =>
    intro c hc
    exfalso
    obtain ⟨hne, _⟩ := (h.backoff s c hc b).mp hb
    obtain ⟨_, q, hq, hpre⟩ := h.isContext hc
    have ho : 0 < occurrences ws c q.2 := occurrences_pos.mpr ⟨q, hq, hpre, rfl⟩
    have hrg := occurrences_le hr ho
    have hq2 : q.2 = ((q.2.toNat : Nat) : Int) := by omega
    have hpos : 0 < trainedCount order ws c q.2 := by
      by_cases hl : (Longer order ws c).Nonempty
      · rw [trainedCount_longer hne hl, Set.ncard_pos ((List.finite_toSet ctxs).subset fun d hd => (h.contexts d).mpr hd.1.1)]
        obtain ⟨d, hd1, hd2⟩ := seen_longer (fun w hw x hx => (hr w hw x hx).1) hl ho
        exact ⟨d, hd1, hd2⟩
      · rw [trainedCount_longest hne hl]; exact ho
    rw [h.total hc, Finset.sum_eq_zero_iff_of_nonneg (fun y _ => by positivity)] at h0
    have := h0 q.2.toNat (by rw [Finset.mem_range]; omega)
    rw [← hq2] at this
    have h1 : trainedCount order ws c q.2 = 0 := by exact_mod_cast this
    omega
  | @seen s b p hb _ _ ih =>
    intro c hc
    obtain ⟨hne, hbc⟩ := (h.backoff s c hc b).mp hb
    have := TextProb.cons (y := y) hne (ih hbc)
    rw [h.cnt hc hy, h.total hc, h.distinct hc]
    exact this

end

/-- asking leaves the automaton alone -/
theorem query_run {A : Arith} {Ok : A.C → Prop} {encode : Int → Str} {m m' : Model A} {tr : List (Op × Answer A)}
    (hr : Run encode m tr m') : ∀ {ord : Nat → Nat} {V u : Nat}, Inv A Ok m ord V u → (∀ e ∈ tr, e.1.Query) → m'.core = m.core := by
  induction hr with
  | nil => intros; rfl
  | @cons m op a m1 tr m2 hv hs _ ih =>
    intro ord V u hi hq
    have hstep : m1.core = m.core := by
      have hq0 := hq (op, a) (by simp)
      cases op with
      | next s sym =>
        obtain ⟨t, _, _, h3⟩ := nextState_query (g := m.sig) hi.laws hi.wf hi.labels encode sym hv
        obtain ⟨m', k1, k2, k3⟩ := h3 m rfl hi.cache
        simp only [step, wrap, k1, Except.ok.injEq, Prod.mk.injEq] at hs
        rw [← hs.2]; exact k2.core
      | scores s =>
        obtain ⟨d, hd, hsz⟩ := hi.wf.ideal hi.laws m.alpha s hv
        obtain ⟨r, hr, _⟩ := fill_ok hsz m.symbols
        obtain ⟨m', k1, k2, k3⟩ := extract_query (g := m.sig) hi.laws hi.wf hv hd hr m rfl hi.cache
        simp only [step, wrap, k1, Except.ok.injEq, Prod.mk.injEq] at hs
        rw [← hs.2]; exact k2.core
      | score s sym =>
        obtain ⟨d, hd, hsz⟩ := hi.wf.ideal hi.laws m.alpha s hv
        obtain ⟨w, hw, _⟩ := symLMScore_query (g := m.sig) hi.laws hi.wf hi.labels encode sym hv hd
        obtain ⟨m', k1, k2, k3⟩ := hw m rfl hi.cache
        simp only [step, wrap, k1, Except.ok.injEq, Prod.mk.injEq] at hs
        rw [← hs.2]; exact k2.core
      | update s syms count => exact hq0.elim
      | logProbs syms => exact hq0.elim
    obtain ⟨a', m1', ord1, h1, e1, e2, e3, e4, e5⟩ := step_inv hi encode hv
    rw [hs] at e1
    injection e1 with e1
    injection e1 with _ e1
    subst e1
    rw [ih e2 (fun e he => hq e (List.mem_cons_of_mem _ he)), hstep]

/-- a history that leaves the counts alone -/
theorem unchanged {A : Arith} {Ok : A.C → Prop} {o : Options A.D} {encode : Int → Str} {m0 m : Model A}
    {tr : List (Op × Answer A)} (L : CountLaws A Ok (initParameters A o).beta) (hi : Initial A Ok o m0)
    (hr : Run encode m0 tr m) (hq : o.static = true ∨ ∀ e ∈ tr, e.1.Query) : m.core = m0.core := by
  rcases hq with hq | hq
  · exact (C28_ppm_static L hi hq hr).1
  · obtain ⟨ord0, V, u, h0⟩ := hi.inv L
    exact query_run hr h0 hq

/-- **C68** A model trained from text, static or not updated yet, gives at the state of each context of the text
exactly the probabilities of the documented formula for the counts of the text: `ExtractLMScores` reports them
for end of string and each character, and they sum to one. -/
theorem C68_text_probabilities (ha : o.alpha ≠ .nan) (hb : o.beta ≠ .nan) {m0 m : Model Arith.xr}
    {ws ctxs : List (List Int)} (hi : Initial Arith.xr OkR o m0) (ht : Totals m0.core.fst m0.chars)
    (htr : Trained order ws ctxs m0.chars m0.core.fst) (hrange : ∀ w ∈ ws, ∀ x ∈ w, 0 < x ∧ x ≤ m0.chars)
    {encode : Int → Str} {tr : List (Op × Answer Arith.xr)} (hr : Run encode m0 tr m)
    (hq : o.static = true ∨ ∀ e ∈ tr, e.1.Query) {c : List Int} (hctx : IsContext order ws c) :
    ∃ (s : Nat) (p : ℕ → ℝ) (r : LMScores XR) (m' : Model Arith.xr), ctxs[s]? = some c ∧
      extractLMScores (s : Int) m = .ok (some r, m') ∧
      r.symbols = [] :: m.symbols.tail.map Prod.snd ∧
      r.probs = (List.range (m0.chars + 1)).map (fun y => .fin (p y)) ∧
      (∀ y ≤ m0.chars, 0 < p y ∧
        TextProb order ws (effective o.alpha (1/2)) (effective o.beta (3/4)) m0.chars y c (p y)) ∧
      ∑ y ∈ Finset.range (m0.chars + 1), p y = 1 := by
  obtain ⟨s, hs⟩ := htr.index hctx
  have hcore := unchanged (laws_of o ha hb) hi hr hq
  have hlt : s < m.core.fst.states.length := by
    rw [hcore, htr.len]; exact lt_of_getElem?_eq_some hs
  obtain ⟨p, N, r, m', k1, k2, k3, _, k5, k6, _⟩ := C23_scores ha hb hi ht hr hlt
  obtain ⟨ord0, u, h0, hd0, _⟩ := hi.known (laws_of o ha hb)
  obtain ⟨_, _, _, hp, _⟩ := run_inv hr h0
  have hc : m.chars = m0.chars := Run.chars hr h0
  have hlen : m.symbols.length = m0.chars + 1 := by
    rw [hp.symbols]
    have := congrArg List.length hd0.labels
    simpa using this
  rw [hlen] at k3 k5 k6
  refine ⟨s, p, r, m', hs, k1, k2, k3, ?_, k6⟩
  intro y hy
  obtain ⟨q1, q2⟩ := k5 y (by omega)
  rw [hcore, hc] at q2
  exact ⟨q1, htr.textProb hrange hy q2 hs⟩

/-! ## C69 -/

section
variable {ws ctxs : List (List Int)} {V : Nat} {f : Fst XR}

theorem LongestContext.unique {past d e : List Int} (hd : LongestContext order ws past d) (he : LongestContext order ws past e) :
    d = e := by
  have h : d.length = e.length := le_antisymm (he.2.2 d hd.1 hd.2.1) (hd.2.2 e he.1 he.2.1)
  rw [List.prefix_iff_eq_take.mp hd.2.1, List.prefix_iff_eq_take.mp he.2.1, h]

/-- contexts of a longer past -/
theorem LongestContext.push {past d e : List Int} {x : Int} (hx : x ≠ 0) (hd : LongestContext order ws past d)
    (he : LongestContext order ws (x :: d) e) : LongestContext order ws (x :: past) e := by
  refine ⟨he.1, he.2.1.trans ((List.prefix_cons_inj x).mpr hd.2.1), ?_⟩
  intro e' he' hpre
  refine he.2.2 e' he' ?_
  cases e' with
  | nil => exact List.nil_prefix
  | cons z e' =>
    obtain ⟨rfl, hpre'⟩ := List.cons_prefix_cons.mp hpre
    have hctx : IsContext order ws e' := by
      obtain ⟨h1, p, h2, h3⟩ := he'
      simp only [List.length_cons] at h1
      -- the position before
      obtain ⟨w, hw, hp⟩ := List.mem_flatMap.mp h2
      have key : ∀ (w past : List Int), ∀ q ∈ positionsFrom past w, z :: e' <+: q.1 →
          (z :: e' <+: past) ∨ ∃ q' ∈ positionsFrom past w, e' <+: q'.1 := by
        intro w
        induction w with
        | nil =>
          intro past q hq hpr
          simp only [positionsFrom, List.mem_singleton] at hq
          subst hq; exact .inl hpr
        | cons a w ih =>
          intro past q hq hpr
          simp only [positionsFrom, List.mem_cons] at hq
          rcases hq with rfl | hq
          · exact .inl hpr
          · rcases ih (a :: past) q hq hpr with h | ⟨q', h4, h5⟩
            · obtain ⟨rfl, h'⟩ := List.cons_prefix_cons.mp h
              exact .inr ⟨(past, z), by simp [positionsFrom], h'⟩
            · exact .inr ⟨q', by simp only [positionsFrom, List.mem_cons]; exact .inr h4, h5⟩
      rcases key w [0] p hp h3 with h | ⟨q', h4, h5⟩
      · exact absurd (List.cons_prefix_cons.mp h).1 hx
      · exact ⟨by omega, q', List.mem_flatMap.mpr ⟨w, hw, h4⟩, h5⟩
    rw [List.prefix_cons_inj]
    exact List.prefix_of_prefix_length_le hpre' hd.2.1 (hd.2.2 e' hctx hpre')

/-- a context that begins with a symbol: the symbol was seen after the rest -/
theorem occurrences_of_context {x : Int} (hx : x ≠ 0) {c : List Int} (h : IsContext order ws (x :: c)) :
    0 < occurrences ws c x := by
  obtain ⟨_, p, h2, h3⟩ := h
  obtain ⟨w, hw, hp⟩ := List.mem_flatMap.mp h2
  have key : ∀ (w past : List Int), ∀ q ∈ positionsFrom past w, x :: c <+: q.1 →
      (x :: c <+: past) ∨ ∃ q' ∈ positionsFrom past w, c <+: q'.1 ∧ q'.2 = x := by
    intro w
    induction w with
    | nil =>
      intro past q hq hpr
      simp only [positionsFrom, List.mem_singleton] at hq
      subst hq; exact .inl hpr
    | cons a w ih =>
      intro past q hq hpr
      simp only [positionsFrom, List.mem_cons] at hq
      rcases hq with rfl | hq
      · exact .inl hpr
      · rcases ih (a :: past) q hq hpr with h | ⟨q', h4, h5⟩
        · obtain ⟨rfl, h'⟩ := List.cons_prefix_cons.mp h
          exact .inr ⟨(past, x), by simp [positionsFrom], h', rfl⟩
        · exact .inr ⟨q', by simp only [positionsFrom, List.mem_cons]; exact .inr h4, h5⟩
  rcases key w [0] p hp h3 with h | ⟨q', h4, h5, h6⟩
  · exact absurd (List.cons_prefix_cons.mp h).1 hx
  · exact occurrences_pos.mpr ⟨q', List.mem_flatMap.mpr ⟨w, hw, h4⟩, h5, h6⟩

/-- where a known symbol leads in a trained automaton -/
theorem Trained.follows (h : Trained order ws ctxs V f) (h2 : 2 ≤ order) {y : Int} (hy : 0 < y) (hyV : y ≤ V)
    (hr : ∀ w ∈ ws, ∀ x ∈ w, 0 < x ∧ x ≤ (V : Int)) {s og : Nat} (ho : Origin Arith.xr f y s og) :
    ∀ {c : List Int} {t : Nat}, ctxs[s]? = some c → Ppm.target f og y = some t →
      ∃ d, ctxs[t]? = some d ∧ LongestContext order ws (y :: c) d := by
  have hyn : y = ((y.toNat : Nat) : Int) := by omega
  induction ho with
  | @here s hc =>
    intro c t hs ht
    have hctx := h.isContext hs
    by_cases hocc : 0 < occurrences ws c y
    · obtain ⟨t', h3, h4⟩ := h.target s c hs y hy hocc
      rw [ht] at h3; injection h3 with h3; subst h3
      have hnext := hctx.next (by omega) hocc
      refine ⟨_, h4, hnext, List.take_prefix _ _, ?_⟩
      intro e he hpre
      rw [List.length_take]
      have := he.1
      have := hpre.length_le
      omega
    · have hz : occurrences ws c y = 0 := by omega
      have hother := h.other s c hs y hy hyV hz
      by_cases hne : c = []
      · subst hne
        rw [if_pos rfl, ht] at hother
        injection hother with hother
        subst hother
        refine ⟨[], hs, hctx, List.nil_prefix, ?_⟩
        intro e he hpre
        cases e with
        | nil => simp
        | cons z e =>
          exfalso
          obtain ⟨rfl, hpre'⟩ := List.cons_prefix_cons.mp hpre
          rw [List.prefix_nil.mp hpre'] at he
          exact hocc (occurrences_of_context (by omega) he)
      · rw [if_neg hne, ht] at hother; cases hother
  | @lower s b og hc hb ho ih =>
    intro c t hs ht
    obtain ⟨hne, hbc⟩ := (h.backoff s c hs b).mp hb
    obtain ⟨d, hd1, hd2⟩ := ih hbc ht
    refine ⟨d, hd1, hd2.1, hd2.2.1.trans ((List.prefix_cons_inj y).mpr (List.dropLast_prefix c)), ?_⟩
    intro e he hpre
    -- the whole of `c` cannot be part of `e`: the symbol was not seen after it
    have hz : ¬ 0 < occurrences ws c y := by
      intro hocc
      have hcount := h.counts s c hs y.toNat (by omega)
      rw [← hyn, hc] at hcount
      have hpos : 0 < trainedCount order ws c y := by
        by_cases hl : (Longer order ws c).Nonempty
        · rw [trainedCount_longer hne hl, Set.ncard_pos ((List.finite_toSet ctxs).subset fun d hd => (h.contexts d).mpr hd.1.1)]
          obtain ⟨d, hd1, hd2⟩ := seen_longer (fun w hw x hx => (hr w hw x hx).1) hl hocc
          exact ⟨d, hd1, hd2⟩
        · rw [trainedCount_longest hne hl]; exact hocc
      rw [if_neg (by omega)] at hcount
      cases hcount
    refine hd2.2.2 e he ?_
    cases e with
    | nil => exact List.nil_prefix
    | cons z e =>
      obtain ⟨rfl, hpre'⟩ := List.cons_prefix_cons.mp hpre
      rw [List.prefix_cons_inj]
      have hlt : e.length < c.length := by
        rcases Nat.lt_or_ge e.length c.length with hlt | hge
        · exact hlt
        · exfalso
          have : e = c := hpre'.eq_of_length (le_antisymm hpre'.length_le hge)
          subst this
          exact hz (occurrences_of_context (by omega) he)
      refine List.prefix_of_prefix_length_le hpre' (List.dropLast_prefix c) ?_
      rw [List.length_dropLast]; omega

end

/-- The label that stands for a typed code point: that of its character, -1 for one the model does not know. -/
def typedLabel (t : SymbolTable) (encode : Int → Str) (sym : Int) : Int :=
  if 0 < t.findLabel (encode sym) then t.findLabel (encode sym) else -1

/-- **C69** In a trained model whose counts are unchanged, `NextState` leads from the state of a context to the
state of the longest context of the text that ends in what was typed. -/
theorem C69_next (ha : o.alpha ≠ .nan) (hb : o.beta ≠ .nan) {m0 m : Model Arith.xr} {ws ctxs : List (List Int)}
    (hi : Initial Arith.xr OkR o m0) (h2 : 2 ≤ order)
    (htr : Trained order ws ctxs m0.chars m0.core.fst) (hrange : ∀ w ∈ ws, ∀ x ∈ w, 0 < x ∧ x ≤ m0.chars)
    {encode : Int → Str} {tr : List (Op × Answer Arith.xr)} (hr : Run encode m0 tr m)
    (hq : o.static = true ∨ ∀ e ∈ tr, e.1.Query) {s : Nat} {c : List Int} (hs : ctxs[s]? = some c) (sym : Int) :
    ∃ (t : Nat) (m' : Model Arith.xr) (d : List Int), nextState encode (s : Int) sym m = .ok ((t : Int), m') ∧
      ctxs[t]? = some d ∧ LongestContext order ws (typedLabel m0.symbols encode sym :: c) d := by
  have hcore := unchanged (laws_of o ha hb) hi hr hq
  obtain ⟨ord0, u, h0, hd0, _⟩ := hi.known (laws_of o ha hb)
  obtain ⟨ord, _, hinv, hp, _⟩ := run_inv hr h0
  have hlt : s < m.core.fst.states.length := by
    rw [hcore, htr.len]; exact lt_of_getElem?_eq_some hs
  obtain ⟨t, hf, htl, hquery⟩ := nextState_query (g := m.sig) hinv.laws hinv.wf hinv.labels encode sym hlt
  obtain ⟨m', k1, _, _⟩ := hquery m rfl hinv.cache
  have hsym : m.symbols = m0.symbols := hp.symbols
  have key : ∃ d, ctxs[t]? = some d ∧ LongestContext order ws (typedLabel m0.symbols encode sym :: c) d := by
    unfold typedLabel
    rcases hf with ⟨hpos, og, ho, ht⟩ | ⟨hneg, rfl⟩
    · simp only [Model.sig] at hpos ho ht
      rw [hsym] at hpos ho ht
      rw [hcore] at ho ht
      rw [if_pos hpos]
      exact htr.follows h2 hpos (hd0.find_le _) hrange ho hs ht
    · simp only [Model.sig] at hneg
      rw [hsym] at hneg
      rw [if_neg (by omega)]
      have hu := hinv.wf.start
      rw [hcore] at hu
      have hstart := htr.start
      have hst1 : ([0] : List Int).take (order - 1) = [0] := by
        obtain ⟨k, rfl⟩ : ∃ k, order = k + 2 := ⟨order - 2, by omega⟩
        show ([0] : List Int).take (k + 1) = [0]
        simp
      rw [hst1] at hstart
      obtain ⟨_, hut⟩ := (htr.backoff _ _ hstart _).mp hu
      refine ⟨[], by simpa using hut, htr.isContext (by simpa using hut), List.nil_prefix, ?_⟩
      intro e he hpre
      cases e with
      | nil => simp
      | cons z e =>
        exfalso
        obtain ⟨rfl, _⟩ := List.cons_prefix_cons.mp hpre
        have hocc := occurrences_of_context (by omega) he
        have := (occurrences_le hrange hocc).1
        omega
  obtain ⟨d, hd1, hd2⟩ := key
  exact ⟨t, m', d, k1, hd1, hd2⟩

/-- **C69** After any text typed from the start state such a model is at the state of the longest context of the
training text that the typed text ends in (0 is the beginning, -1 a character the model does not know); typed at
the state of another context, that context counts as typed before. -/
theorem C69_typed (ha : o.alpha ≠ .nan) (hb : o.beta ≠ .nan) {m0 : Model Arith.xr} {ws ctxs : List (List Int)}
    (hi : Initial Arith.xr OkR o m0) (h2 : 2 ≤ order)
    (htr : Trained order ws ctxs m0.chars m0.core.fst) (hrange : ∀ w ∈ ws, ∀ x ∈ w, 0 < x ∧ x ≤ m0.chars)
    {encode : Int → Str} {tr : List (Op × Answer Arith.xr)} {m : Model Arith.xr} (hr : Run encode m0 tr m)
    (hq : o.static = true ∨ ∀ e ∈ tr, e.1.Query) (syms : List Int) :
    (∃ (t : Nat) (m' : Model Arith.xr) (d : List Int), contextState encode syms (-1) m = .ok ((t : Int), m') ∧
      ctxs[t]? = some d ∧
      LongestContext order ws ((syms.map (typedLabel m0.symbols encode)).reverse ++ [0]) d) ∧
    ∀ (s : Nat) (c : List Int), ctxs[s]? = some c →
      ∃ (t : Nat) (m' : Model Arith.xr) (d : List Int), contextState encode syms (s : Int) m = .ok ((t : Int), m') ∧
        ctxs[t]? = some d ∧
        LongestContext order ws ((syms.map (typedLabel m0.symbols encode)).reverse ++ c) d := by
  have hst1 : ([0] : List Int).take (order - 1) = [0] := by
    obtain ⟨k, rfl⟩ : ∃ k, order = k + 2 := ⟨order - 2, by omega⟩
    show ([0] : List Int).take (k + 1) = [0]
    simp
  have hlabel : ∀ sym, typedLabel m0.symbols encode sym ≠ 0 := by
    intro sym
    unfold typedLabel
    split <;> omega
  -- from any state reached
  have key : ∀ (syms : List Int) {tr : List (Op × Answer Arith.xr)} {m : Model Arith.xr}, Run encode m0 tr m →
      (o.static = true ∨ ∀ e ∈ tr, e.1.Query) → ∀ {s : Nat} {c past : List Int}, ctxs[s]? = some c →
      LongestContext order ws past c →
      ∃ (t : Nat) (m' : Model Arith.xr) (d : List Int), contextLoop encode syms (s : Int) m = .ok ((t : Int), m') ∧
        ctxs[t]? = some d ∧ LongestContext order ws ((syms.map (typedLabel m0.symbols encode)).reverse ++ past) d := by
    intro syms
    induction syms with
    | nil => intro tr m _ _ s c past hs hl; exact ⟨s, m, c, rfl, hs, by simpa using hl⟩
    | cons sym syms ih =>
      intro tr m hr hq s c past hs hl
      obtain ⟨t, m', d, k1, k2, k3⟩ := C69_next ha hb hi h2 htr hrange hr hq hs sym
      have hcore := unchanged (laws_of o ha hb) hi hr hq
      have hv : (Op.next s sym).Valid m := by
        show s < m.core.fst.states.length
        rw [hcore, htr.len]; exact lt_of_getElem?_eq_some hs
      have hr' : Run encode m0 (tr ++ [(.next s sym, .state (t : Int))]) m' :=
        hr.append (.cons hv (by simp only [step, wrap, k1]) .nil)
      have hq' : o.static = true ∨ ∀ e ∈ tr ++ [(Op.next s sym, (Answer.state (t : Int) : Answer Arith.xr))], e.1.Query := by
        refine hq.imp id fun h e he => ?_
        rcases List.mem_append.mp he with he | he
        · exact h e he
        · rw [List.mem_singleton.mp he]; trivial
      obtain ⟨t', m'', d', q1, q2, q3⟩ := ih hr' hq' k2 (hl.push (hlabel sym) k3)
      refine ⟨t', m'', d', ?_, q2, ?_⟩
      · unfold contextLoop
        rw [k1]
        simp only
        rw [if_neg (by omega)]
        exact q1
      · simpa using q3
  have hcore := unchanged (laws_of o ha hb) hi hr hq
  have hstart := htr.start
  rw [hst1] at hstart
  constructor
  swap
  · intro s c hs
    obtain ⟨t, m', d, q1, q2, q3⟩ := key syms hr hq (past := c) hs
      ⟨htr.isContext hs, List.prefix_rfl, fun e _ he => he.length_le⟩
    refine ⟨t, m', d, ?_, q2, q3⟩
    unfold contextState
    rw [if_neg (by omega)]
    exact q1
  obtain ⟨t, m', d, q1, q2, q3⟩ := key syms hr hq (past := [0]) hstart
    ⟨htr.isContext hstart, List.prefix_rfl, fun e _ he => he.length_le⟩
  refine ⟨t, m', d, ?_, q2, q3⟩
  unfold contextState
  rw [if_pos (by omega), hcore]
  exact q1

end Mozolm.Ppm
