import Verif.Props.PpmMemory
import Verif.Props.PpmTrainDemo

/-!
# C76: the memories that models read from files start with
-/

namespace Mozolm.Ppm
open XR
open scoped BigOperators
variable {o : Options XR} {order : Nat} {ws ctxs : List (List Int)} {V : Nat}

theorem trainedCount_occurs {c : List Int} {y : Int} (hc : c ≠ []) (h : 0 < trainedCount order ws c y) : 0 < occurrences ws c y := by
  by_cases hl : (Longer order ws c).Nonempty
  · rw [trainedCount_longer hc hl] at h
    obtain ⟨d, hd, hd2⟩ := Set.nonempty_of_ncard_ne_zero (Nat.pos_iff_ne_zero.mp h)
    have hd3 := hd.2.2
    exact occurrences_prefix (by rw [← hd3]; exact List.dropLast_prefix d) hd2
  · rwa [trainedCount_longest hc hl] at h

/-- the contexts longer by one are finitely many -/
theorem longer_finite' (c : List Int) : (Longer order ws c).Finite :=
  (Set.Finite.subset (List.finite_toSet (TrainDemo.contextsOf order ws)) fun _ hd => TrainDemo.mem_contextsOf.mpr hd.1)

theorem occurs_trainedCount (hw : ∀ w ∈ ws, ∀ x ∈ w, 0 < x) {c : List Int} {y : Int} (h : 0 < occurrences ws c y) :
    0 < trainedCount order ws c y := by
  by_cases hc : c = []
  · rw [hc, trainedCount_nil]; omega
  by_cases hl : (Longer order ws c).Nonempty
  · rw [trainedCount_longer hc hl]
    obtain ⟨d, hd, hd2⟩ := seen_longer hw hl h
    exact (Set.ncard_pos ((longer_finite' c).subset fun _ h => h.1)).mpr ⟨d, hd, hd2⟩
  · rwa [trainedCount_longest hc hl]

theorem ofText_count {c : List Int} (hl : c.length < order) (y : Int) : (Memory.ofText order ws).count c y = trainedCount order ws c y :=
  if_pos hl

theorem ofText_pos {c : List Int} {y : Int} (h : 0 < (Memory.ofText order ws).count c y) : 0 < trainedCount order ws c y := by
  by_cases hl : c.length < order
  · rwa [ofText_count hl] at h
  · rw [show (Memory.ofText order ws).count c y = 0 from if_neg hl] at h
    omega

/-- the memory of a text -/
theorem grounded_ofText (h2 : 2 ≤ order) (hne : ws ≠ []) (hw : ∀ w ∈ ws, ∀ x ∈ w, 0 < x ∧ x ≤ (V : Int)) :
    (Memory.ofText order ws).Grounded order V where
  short c h := h.1
  closed c h := h.prefix (List.dropLast_prefix c)
  start := by
    have := IsContext.start (order := order) (by omega) hne
    rwa [List.take_of_length_le (by simp; omega)] at this
  seen z c h hz := by
    have h1 := h.1
    rw [List.length_cons] at h1
    rw [ofText_count (by omega)]
    exact occurs_trainedCount (fun w hw' x hx => (hw w hw' x hx).1) (occurrences_of_context hz h)
  labels z c h := by
    by_cases hz : z = 0
    · omega
    · exact occurrences_le hw (occurrences_of_context hz h)
  counted c y h hlt := by
    by_cases hc : c = []
    · subst hc; exact IsContext.nil (by omega) hne
    · obtain ⟨p, h1, h2, _⟩ := occurrences_pos.mp (trainedCount_occurs hc (ofText_pos h))
      exact ⟨hlt, p, h1, h2⟩
  all y _ := by
    rw [ofText_count (by simp; omega), trainedCount_nil]; omega
  origin c h := by
    obtain ⟨_, p, h1, h2⟩ := h
    obtain ⟨⟨l, e1, e2⟩, _⟩ := positions_ok (fun w hw' x hx => (hw w hw' x hx).1) p h1
    rw [e1] at h2
    cases l with
    | nil =>
      obtain ⟨_, h3⟩ := List.cons_prefix_cons.mp h2
      exact List.prefix_nil.mp h3
    | cons a l =>
      obtain ⟨h3, _⟩ := List.cons_prefix_cons.mp h2
      have := e2 a (by simp)
      omega

/-- a trained automaton holds the memory of the text -/
theorem Trained.holds {f : Fst XR} (h : Trained order ws ctxs V f) (h2 : 2 ≤ order)  :
    Holds order V (Memory.ofText order ws) ctxs f where
  nodup := h.nodup
  contexts := h.contexts
  len := h.len
  start := by
    have := h.start
    rwa [List.take_of_length_le (by simp; omega)] at this
  counts := by
    intro s c hc y hy
    rw [ofText_count ((h.contexts c).1 (List.mem_of_getElem? hc)).1]
    exact h.counts s c hc y hy
  backoff := h.backoff
  target := by
    intro s c hc y h0 hV hpos
    by_cases ho : 0 < occurrences ws c y
    · obtain ⟨t, h1, h2⟩ := h.target s c hc y h0 ho
      exact ⟨t, h1, .inl h2⟩
    · have ho0 : occurrences ws c y = 0 := by omega
      by_cases hne : c = []
      · have := h.other s c hc y h0 hV ho0
        rw [if_pos hne] at this
        refine ⟨s, this, .inr ⟨hne, rfl, fun hk => ho ?_⟩⟩
        rw [hne]
        exact occurrences_of_context (by omega) hk
      · exact absurd (trainedCount_occurs hne (ofText_pos hpos)) ho

/-- the memory of nothing -/
theorem grounded_blank (h2 : 2 ≤ order) : Memory.blank.Grounded order V where
  short c h := by rcases h with rfl | rfl <;> simp <;> omega
  closed c h := by rcases h with rfl | rfl <;> exact .inl rfl
  start := .inr rfl
  seen z c h hz := by
    rcases h with h | h
    · cases h
    · injection h with h _; exact absurd h hz
  labels z c h := by
    rcases h with h | h
    · cases h
    · injection h with h _; omega
  counted c y h _ := by
    left
    by_contra hc
    simp [Memory.blank, hc] at h
  all y _ := by simp [Memory.blank]
  origin c h := by
    rcases h with h | h
    · cases h
    · injection h

theorem find_loops (A : Arith) (u : Nat) : ∀ (k V : Nat) {y : Int}, (V : Int) < y → y ≤ (V : Int) + k →
    (loops A u V k).find? (fun a => a.label == y) = some ⟨y, A.one, u⟩ := by
  intro k
  induction k with
  | zero => intro V y h1 h2; omega
  | succ k ih =>
    intro V y h1 h2
    rw [loops_succ, List.find?_cons]
    by_cases hy : y = ((V + 1 : Nat) : Int)
    · subst hy; simp
    · have : ((((V + 1 : Nat) : Int)) == y) = false := by simp only [beq_eq_false_iff_ne, ne_eq]; omega
      simp only [this]
      exact ih (V + 1) (by omega) (by omega)

theorem fresh_holds : Holds order V Memory.blank [[0], []] (freshFst Arith.xr V) where
  nodup := by decide
  contexts c := by simp [Memory.blank, or_comm]
  len := rfl
  start := rfl
  counts := by
    intro s c hc y hy
    match s with
    | 0 =>
      have : c = [0] := by simpa using hc.symm
      subst this
      rw [fresh_unseen]; simp [Memory.blank]
    | 1 =>
      have : c = [] := by simpa using hc.symm
      subst this
      rw [show Memory.blank.count [] (y : Int) = 1 from rfl]
      simp only [one_ne_zero, if_false]
      show stateCount Arith.xr ⟨Arith.xr.one, loops Arith.xr 1 0 V⟩ y = _
      unfold stateCount
      rw [Nat.cast_one, costOf_one]
      by_cases hy0 : (y : Int) = 0
      · rw [if_pos hy0]; simp [Arith.xr]
      · rw [if_neg hy0]
        simp only
        rw [find_loops Arith.xr 1 V 0 (by omega) (by omega)]
        rfl
    | s + 2 => simp at hc
  backoff := by
    intro s c hc b
    match s with
    | 0 =>
      have : c = [0] := by simpa using hc.symm
      subst this
      have : Ppm.backoff (freshFst Arith.xr V) 0 = some 1 := rfl
      rw [this]
      constructor
      · intro h; injection h with h; subst h; exact ⟨by simp, rfl⟩
      · rintro ⟨_, h⟩
        match b with
        | 0 => simp at h
        | 1 => rfl
        | b + 2 => simp at h
    | 1 =>
      have : c = [] := by simpa using hc.symm
      subst this
      constructor
      · intro h; exact absurd (fresh_backoff h) (by omega)
      · rintro ⟨h, _⟩; exact absurd rfl h
    | s + 2 => simp at hc
  target := by
    intro s c hc y h0 hy hpos
    match s with
    | 0 =>
      have : c = [0] := by simpa using hc.symm
      subst this
      simp [Memory.blank] at hpos
    | 1 =>
      have : c = [] := by simpa using hc.symm
      subst this
      refine ⟨1, ?_, .inr ⟨rfl, rfl, ?_⟩⟩
      · show (if y = 0 then _ else _) = _
        rw [if_neg (by omega)]
        show ((loops Arith.xr 1 0 V).find? fun a => a.label == y).map Arc.next = some 1
        rw [find_loops Arith.xr 1 V 0 (by omega) (by omega)]
        rfl
      · rintro (h | h)
        · cases h
        · injection h with h _; omega
    | s + 2 => simp at hc

/-- `Read` ends with the calculation of the orders -/
theorem read_orders {A : Arith} {o : Options A.D} {src : Source A.C} {vocab : Option (Option (List (List Str)))} {m : Model A}
    (h : read A o src vocab = pure m) :
    ∃ (f : Fst A.C) (save : Bool), calculateStateOrders A f (if o.maxOrder > 0 then o.maxOrder else 4) save = pure m.core := by
  unfold read at h
  obtain ⟨r, _, h⟩ := Res.bind_eq.mp h
  obtain ⟨r', _, h⟩ := Res.bind_eq.mp h
  obtain ⟨c, hc, h⟩ := Res.bind_eq.mp h
  have := Res.pure_inj h
  subst this
  exact ⟨_, _, hc⟩

/-- the order in use is the one configured, unless the automaton has longer contexts -/
theorem read_maxOrder {A : Arith} {o : Options A.D} {src : Source A.C} {vocab : Option (Option (List (List Str)))} {m : Model A}
    (h : read A o src vocab = pure m) {Ok : A.C → Prop} {ord : Nat → Nat} {mo : Int} {V u : Nat} (wf : WF A Ok m.core.fst ord mo V u) :
    (if o.maxOrder > 0 then o.maxOrder else 4) ≤ m.core.maxOrder ∧ 2 ≤ m.core.maxOrder ∧
      ((if o.maxOrder > 0 then o.maxOrder else 4) < m.core.maxOrder →
        ∃ s, s < m.core.fst.states.length ∧ m.core.maxOrder = (ord s : Int) + 1) := by
  obtain ⟨f, save, hf⟩ := read_orders h
  have hfst : m.core.fst = f := by
    unfold calculateStateOrders at hf
    simp only at hf
    by_cases h1 : f.start ≥ f.states.length
    · rw [if_pos h1] at hf; cases hf
    · rw [if_neg h1] at hf
      obtain ⟨b, _, hf⟩ := Res.bind_eq.mp hf
      by_cases h2 : b < 0
      · rw [if_pos h2] at hf; cases hf
      · rw [if_neg h2] at hf
        obtain ⟨r, _, hf⟩ := Res.bind_eq.mp hf
        have := Res.pure_inj hf
        rw [← this]
  rw [hfst] at wf ⊢
  obtain ⟨c, h1, h2, h3, h4, _, _, h5⟩ := calculateStateOrders_ok wf (if o.maxOrder > 0 then o.maxOrder else 4) save
  have := Res.pure_inj (hf.symm.trans h1)
  rw [this]
  exact ⟨h3, h4, h5⟩

variable {counter : Nat → List (List Int) → Fst XR} {lines : List (List Str)}

/-- A model trained from text is a learner that starts with the memory of the text. -/
theorem text_learner (hc : CounterOk counter) (ha : o.alpha ≠ .nan) (hb : o.beta ≠ .nan) (hs : o.static = false)
    (horder : (order : Int) = if o.maxOrder > 0 then o.maxOrder else 4) (h2 : 2 ≤ order)
    (hne : ∃ l ∈ lines, l ≠ []) (heps : epsilonName ∉ lines.flatten) {vocab : Option (List (List Str))}
    (hv : vocab ≠ some []) :
    ∃ m0 : Model Arith.xr, readText counter o (some lines) (vocab.map some) = pure m0 ∧
      (∀ c, c ∈ m0.symbols.map Prod.snd ↔ c = epsilonName ∨ c ∈ lines.flatten ∨ c ∈ (vocab.getD []).flatten) ∧
      Learner o order (Memory.ofText order (labelLines m0.symbols lines)) m0 := by
  obtain ⟨m0, ctxs, k1, k2, k3, k4, k5, k6, k7⟩ := C67_training hc ha hb horder h2 hne heps hv
  have hh := k2.holds h2
  have hg := grounded_ofText h2 (labelLines_ne (t := m0.symbols) hne) k5
  refine ⟨m0, k1, k4, ha, hb, hs, k7, k6, ⟨ctxs, hh⟩, hg, ?_, h2⟩
  obtain ⟨ord, u, hinv, _⟩ := k7.known (laws_of o ha hb)
  have hread : ∃ src v, read Arith.xr o src v = pure m0 := by
    unfold readText at k1
    simp only at k1
    obtain ⟨r, _, h⟩ := Res.bind_eq.mp k1
    exact ⟨_, _, h⟩
  obtain ⟨src, v, hread⟩ := hread
  obtain ⟨q1, q2, q3⟩ := read_maxOrder hread hinv.wf
  rw [← horder] at q1 q3
  rcases Int.lt_or_eq_of_le q1 with hlt | heq
  · obtain ⟨s, hs1, hs2⟩ := q3 hlt
    obtain ⟨c, hcx⟩ := hh.context hs1
    have := hh.length hg hinv.wf hcx
    have := hg.short c (hh.known hcx)
    omega
  · exact heq.symm

/-- A model read from a vocabulary alone is a learner that starts with nothing. -/
theorem vocabulary_learner (ha : o.alpha ≠ .nan) (hb : o.beta ≠ .nan) (hs : o.static = false)
    (horder : (order : Int) = max 2 (if o.maxOrder > 0 then o.maxOrder else 4)) {ls : List (List Str)}
    (hls : ∃ c ∈ ls.flatten, c ≠ epsilonName) :
    ∃ m0 : Model Arith.xr, read Arith.xr o .none (some (some ls)) = pure m0 ∧
      (∀ c, c ∈ m0.symbols.map Prod.snd ↔ c = epsilonName ∨ c ∈ ls.flatten) ∧ Learner o order Memory.blank m0 := by
  have hls' : ∃ c ∈ ls.flatten, c ∉ epsilonTable.map Prod.snd := by
    obtain ⟨c, h1, h2⟩ := hls
    exact ⟨c, h1, by simpa [epsilonTable, epsilonName] using h2⟩
  obtain ⟨m0, ord, V, k1, k2, k3, k4, k5, k6, _, _, k7⟩ := read_vocab_ok (A := Arith.xr) (Ok := OkR) (laws_of o ha hb) hls'
  have hi : Initial Arith.xr OkR o m0 := .vocabulary hls' k1
  have hV : m0.chars = V := k3.dense.chars
  have h2 : 2 ≤ order := by omega
  have hh : Holds order m0.chars Memory.blank [[0], []] m0.core.fst := by rw [k6, hV]; exact fresh_holds
  have hg : Memory.blank.Grounded order m0.chars := grounded_blank h2
  refine ⟨m0, k1, ?_, ha, hb, hs, hi, C22_vocabulary ha hb hls' k1, ⟨_, hh⟩, hg, ?_, h2⟩
  · intro c
    rw [k3.symbols]
    simp [epsilonTable, epsilonName]
  rw [← hV] at k2
  obtain ⟨q1, q2, q3⟩ := read_maxOrder k1 k2.wf
  generalize (if o.maxOrder > 0 then o.maxOrder else 4) = k at horder q1 q3
  rcases Int.lt_or_eq_of_le q1 with hlt | heq
  · obtain ⟨s, hs1, hs2⟩ := q3 hlt
    obtain ⟨c, hcx⟩ := hh.context hs1
    have h1 := hh.length hg k2.wf hcx
    have h2 : c.length ≤ 1 := by rcases hh.known hcx with rfl | rfl <;> simp
    omega
  · clear q3
    omega

/-- **C76** A learner learns as its memory: whatever calls were made, it answers as the memory that the calls make of
it. -/
theorem C76_learner {K : Nat} {M : Memory} {m0 : Model Arith.xr} (h : Learner o K M m0) (encode : Int → Str) (calls : List Call) :
    ∃ (as : List (Answer Arith.xr)) (m : Model Arith.xr), runCalls encode calls m0 = .ok (as, m) ∧
      Answers o encode m0.symbols m0.chars (M.uses K m0.chars (alphabet m0.symbols encode) calls) m := by
  obtain ⟨ctxs, h0⟩ := h.held
  exact C76_history h.alpha h.beta h.adaptive h.initial h.totals h0 h.grounded h.order h.two encode calls

/-- **C76** A model trained from text goes on learning as a memory that starts with the contexts and counts of the
text: whatever calls were made, it answers as the memory that the calls make of it. -/
theorem C76_text (hc : CounterOk counter) (ha : o.alpha ≠ .nan) (hb : o.beta ≠ .nan) (hs : o.static = false)
    (horder : (order : Int) = if o.maxOrder > 0 then o.maxOrder else 4) (h2 : 2 ≤ order)
    (hne : ∃ l ∈ lines, l ≠ []) (heps : epsilonName ∉ lines.flatten) {vocab : Option (List (List Str))}
    (hv : vocab ≠ some []) (encode : Int → Str) :
    ∃ m0 : Model Arith.xr, readText counter o (some lines) (vocab.map some) = pure m0 ∧
      (∀ c, c ∈ m0.symbols.map Prod.snd ↔ c = epsilonName ∨ c ∈ lines.flatten ∨ c ∈ (vocab.getD []).flatten) ∧
      ∀ calls : List Call, ∃ (as : List (Answer Arith.xr)) (m : Model Arith.xr), runCalls encode calls m0 = .ok (as, m) ∧
        Answers o encode m0.symbols m0.chars
          ((Memory.ofText order (labelLines m0.symbols lines)).uses order m0.chars (alphabet m0.symbols encode) calls) m := by
  obtain ⟨m0, k1, k2, k3⟩ := text_learner hc ha hb hs horder h2 hne heps hv
  exact ⟨m0, k1, k2, C76_learner k3 encode⟩

/-- **C76** A model read from a vocabulary alone learns as a memory that starts with nothing. -/
theorem C76_vocabulary (ha : o.alpha ≠ .nan) (hb : o.beta ≠ .nan) (hs : o.static = false)
    (horder : (order : Int) = max 2 (if o.maxOrder > 0 then o.maxOrder else 4)) {ls : List (List Str)}
    (hls : ∃ c ∈ ls.flatten, c ≠ epsilonName) (encode : Int → Str) :
    ∃ m0 : Model Arith.xr, read Arith.xr o .none (some (some ls)) = pure m0 ∧
      (∀ c, c ∈ m0.symbols.map Prod.snd ↔ c = epsilonName ∨ c ∈ ls.flatten) ∧
      ∀ calls : List Call, ∃ (as : List (Answer Arith.xr)) (m : Model Arith.xr), runCalls encode calls m0 = .ok (as, m) ∧
        Answers o encode m0.symbols m0.chars (Memory.blank.uses order m0.chars (alphabet m0.symbols encode) calls) m := by
  obtain ⟨m0, k1, k2, k3⟩ := vocabulary_learner ha hb hs horder hls
  exact ⟨m0, k1, k2, C76_learner k3 encode⟩

end Mozolm.Ppm
