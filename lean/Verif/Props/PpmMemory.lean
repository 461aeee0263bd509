import Verif.Ppm.MemoryRun
import Verif.Ppm.Calls

/-!
# C76: a PPM model that learns is a memory of contexts

`Memory`, what observations do to it and the probabilities after a context are in `Ppm/MemorySpec.lean`, uses of the
model after a text in `Ppm/Calls.lean`.
-/

namespace Mozolm.Ppm
open XR Classical
open scoped BigOperators
variable {o : Options XR} {K : Nat} {encode : Int → Str}

/-- A model reached from `m0` that holds the memory. -/
structure Keeps (encode : Int → Str) (K : Nat) (M : Memory) (ctxs : List (List Int)) (m0 m : Model Arith.xr) : Prop where
  run : ∃ tr, Run encode m0 tr m
  holds : Holds K m0.chars M ctxs m.core.fst
  grounded : M.Grounded K m0.chars
  order : m.core.maxOrder = K
  two : 2 ≤ K

section
variable {M : Memory} {ctxs : List (List Int)} {m0 m : Model Arith.xr}

/-- the invariants at hand -/
theorem Keeps.inv (ha : o.alpha ≠ .nan) (hb : o.beta ≠ .nan) (hi : Initial Arith.xr OkR o m0) (h : Keeps encode K M ctxs m0 m) :
    ∃ ord u, Inv Arith.xr OkR m ord m0.chars u ∧ m.symbols = m0.symbols ∧ m.static = o.static := by
  obtain ⟨tr, hr⟩ := h.run
  obtain ⟨ord0, u, h0, _⟩ := hi.known (laws_of o ha hb)
  obtain ⟨ord, _, hinv, hp, _⟩ := run_inv hr h0
  exact ⟨ord, u, hinv, hp.symbols, hp.static.trans hi.static_eq⟩

/-- asking for the next state -/
theorem Keeps.next (ha : o.alpha ≠ .nan) (hb : o.beta ≠ .nan) (hi : Initial Arith.xr OkR o m0) (h : Keeps encode K M ctxs m0 m)
    {s : Nat} {c : List Int} (hs : ctxs[s]? = some c) (sym : Int) :
    ∃ (t : Nat) (m' : Model Arith.xr), nextState encode (s : Int) sym m = .ok ((t : Int), m') ∧ Keeps encode K M ctxs m0 m' ∧
      m'.core = m.core ∧ ctxs[t]? = some (M.longest (typedLabel m0.symbols encode sym :: c)) := by
  obtain ⟨ord, u, hinv, hsym, _⟩ := h.inv ha hb hi
  obtain ⟨t, hf, htl, hq⟩ := nextState_query (g := m.sig) hinv.laws hinv.wf hinv.labels encode sym (h.holds.lt hs)
  obtain ⟨m', k1, k2, k3⟩ := hq m rfl hinv.cache
  obtain ⟨tr, hr⟩ := h.run
  have hv : (Op.next s sym).Valid m := h.holds.lt hs
  refine ⟨t, m', k1, ⟨⟨_, hr.append (.cons hv (by simp only [step, wrap, k1]; rfl) .nil)⟩, ?_, h.grounded, ?_, h.two⟩, k2.core, ?_⟩
  · rw [k2.core]; exact h.holds
  · rw [k2.core]; exact h.order
  · have := Holds.next (g := m.sig) h.holds h.grounded h.two hinv.wf hinv.labels hf hs
    rw [← hsym]; exact this

/-- the state for a text -/
theorem Keeps.contextLoop (ha : o.alpha ≠ .nan) (hb : o.beta ≠ .nan) (hi : Initial Arith.xr OkR o m0) (text : List Int) :
    ∀ {m : Model Arith.xr}, Keeps encode K M ctxs m0 m → ∀ {s : Nat} {past : List Int}, ctxs[s]? = some (M.longest past) →
    ∃ (t : Nat) (m' : Model Arith.xr), Ppm.contextLoop encode text (s : Int) m = .ok ((t : Int), m') ∧ Keeps encode K M ctxs m0 m' ∧
      m'.core = m.core ∧ ctxs[t]? = some (M.longest ((text.map (typedLabel m0.symbols encode)).reverse ++ past)) := by
  induction text with
  | nil => intro m h s past hs; exact ⟨s, m, rfl, h, rfl, by simpa using hs⟩
  | cons sym text ih =>
    intro m h s past hs
    obtain ⟨t, m1, k1, k2, k3, k4⟩ := h.next ha hb hi hs sym
    rw [h.grounded.longest_cons (typedLabel_ne _ _ _)] at k4
    obtain ⟨t', m2, l1, l2, l3, l4⟩ := ih k2 k4
    refine ⟨t', m2, ?_, l2, l3.trans k3, by simpa using l4⟩
    unfold Ppm.contextLoop
    rw [k1]
    simp only
    rw [if_neg (by omega)]
    exact l1

theorem Keeps.contextState (ha : o.alpha ≠ .nan) (hb : o.beta ≠ .nan) (hi : Initial Arith.xr OkR o m0) (text : List Int)
    (h : Keeps encode K M ctxs m0 m) :
    ∃ (t : Nat) (m' : Model Arith.xr), Ppm.contextState encode text (-1) m = .ok ((t : Int), m') ∧ Keeps encode K M ctxs m0 m' ∧
      ctxs[t]? = some (M.longest ((alphabet m0.symbols encode).past text)) := by
  have hstart := h.holds.start
  rw [← M.longest_self h.grounded.nil h.grounded.start] at hstart
  obtain ⟨t, m', k1, k2, _, k4⟩ := Keeps.contextLoop ha hb hi text h hstart
  refine ⟨t, m', ?_, k2, k4⟩
  unfold Ppm.contextState
  rw [if_pos (by omega)]
  exact k1

/-- a call that only asks -/
theorem Keeps.step (ha : o.alpha ≠ .nan) (hb : o.beta ≠ .nan) (hi : Initial Arith.xr OkR o m0) (h : Keeps encode K M ctxs m0 m) {op : Op}
    (hv : op.Valid m) (hq : op.Query) :
    ∃ (a : Answer Arith.xr) (m' : Model Arith.xr), Ppm.step encode op m = .ok (a, m') ∧ Keeps encode K M ctxs m0 m' := by
  obtain ⟨ord, u, hinv, hsym, hst⟩ := h.inv ha hb hi
  obtain ⟨a, m', ord', l, k1, k2, k3, k4, k5⟩ := step_inv hinv encode hv
  have hr1 : Run encode m [(op, a)] m' := .cons hv k1 .nil
  have hcore : m'.core = m.core := query_run hr1 hinv (by
    intro e he
    rw [List.mem_singleton.mp he]; exact hq)
  obtain ⟨tr, hr⟩ := h.run
  exact ⟨a, m', k1, ⟨_, hr.append hr1⟩, by rw [hcore]; exact h.holds, h.grounded, by rw [hcore]; exact h.order, h.two⟩

/-- Counting a text at a state. -/
theorem Keeps.learn (ha : o.alpha ≠ .nan) (hb : o.beta ≠ .nan) (hi : Initial Arith.xr OkR o m0) (hs : o.static = false)
    (h : Keeps encode K M ctxs m0 m) {s : Nat} {c : List Int} (hc : ctxs[s]? = some c) (syms : List Int) (count : Int) :
    ∃ (m' : Model Arith.xr) (new : List (List Int)), updateLMCounts encode (s : Int) syms count m = .ok (true, m') ∧
      Keeps encode K (if 0 < count then M.learn K (alphabet m0.symbols encode) count.toNat c syms else M) (ctxs ++ new) m0 m' := by
  obtain ⟨ord, u, hinv, hsym, hst⟩ := h.inv ha hb hi
  rw [hs] at hst
  obtain ⟨tr, hr⟩ := h.run
  have hv : (Op.update s syms count).Valid m := h.holds.lt hc
  by_cases hcount : 0 < count
  · obtain ⟨c', new, l1, l2, l3⟩ := updateSymbols_holds h.two encode hcount syms (g := m.sig) hinv.laws hinv.wf (hinv.orders hst) hinv.labels
      h.order h.holds h.grounded hc
    obtain ⟨m2, n1, n2, n3, n4⟩ := l1 m rfl hinv.cache
    have hupd : updateLMCounts encode (s : Int) syms count m = .ok (true, m2) := by
      unfold updateLMCounts
      rw [hst, if_neg (by simp; omega)]
      exact orElse_some (f := fun _ => true) n1
    have hstep : Ppm.step encode (.update s syms count) m = .ok (.ok true, m2) := by
      simp only [Ppm.step, wrap, hupd]
    have hmo : m2.core.maxOrder = K := by
      obtain ⟨ordx, lx, _, _, hobs, _⟩ := run_inv (.cons hv hstep .nil : Run encode m _ m2) hinv
      rw [hobs.maxOrder]; exact h.order
    have hsym' : m.sig.symbols = m0.symbols := hsym
    rw [hsym'] at l2 l3
    refine ⟨m2, new, hupd, ⟨_, hr.append (.cons hv hstep .nil)⟩, ?_, ?_, hmo, h.two⟩
    · rw [if_pos hcount, n3]; exact l2
    · rw [if_pos hcount]; exact l3
  · have hupd : updateLMCounts encode (s : Int) syms count m = .ok (true, m) := by
      unfold updateLMCounts
      rw [if_pos (by simp; right; omega)]
    refine ⟨m, [], hupd, ?_⟩
    rw [List.append_nil, if_neg hcount]
    exact h

/-- One use is one use of the memory. -/
theorem Keeps.use (ha : o.alpha ≠ .nan) (hb : o.beta ≠ .nan) (hi : Initial Arith.xr OkR o m0) (hs : o.static = false)
    (h : Keeps encode K M ctxs m0 m) (call : Call) :
    ∃ (a : Answer Arith.xr) (m' : Model Arith.xr) (new : List (List Int)), call.run encode m = .ok (a, m') ∧
      Keeps encode K (M.use K m0.chars (alphabet m0.symbols encode) call) (ctxs ++ new) m0 m' := by
  cases call with
  | ask text =>
    obtain ⟨t, m1, k1, k2, k3⟩ := h.contextState ha hb hi text
    obtain ⟨a, m2, l1, l2⟩ := k2.step ha hb hi (op := .scores t) (k2.holds.lt k3) trivial
    refine ⟨a, m2, [], ?_, by simpa [Memory.use] using l2⟩
    simp only [Call.run, after, k1]
    exact l1
  | score text sym =>
    obtain ⟨t, m1, k1, k2, k3⟩ := h.contextState ha hb hi text
    obtain ⟨a, m2, l1, l2⟩ := k2.step ha hb hi (op := .score t sym) (k2.holds.lt k3) trivial
    refine ⟨a, m2, [], ?_, by simpa [Memory.use] using l2⟩
    simp only [Call.run, after, k1]
    exact l1
  | learn text syms count =>
    obtain ⟨t, m1, k1, k2, k3⟩ := h.contextState ha hb hi text
    obtain ⟨m2, new, l1, l2⟩ := k2.learn ha hb hi hs k3 syms count
    exact ⟨.ok true, m2, new, by simp only [Call.run, after, k1, wrap, l1], l2⟩
  | logProbs labels =>
    obtain ⟨ord, u, hinv, hsym, hst⟩ := h.inv ha hb hi
    rw [hs] at hst
    obtain ⟨tr, hr⟩ := h.run
    obtain ⟨r, c', ord', l, k1, _, k3, k4⟩ := getNegLogProbsFrom_effect (A := Arith.xr) (Ok := OkR) labels (g := m.sig) hinv.laws hinv.wf
      hinv.orders hinv.wf.start_lt
    obtain ⟨new, n1, n2⟩ := (k4 hst).holds h.two h.holds h.grounded h.order hinv.wf h.holds.start
    obtain ⟨m', e1, _, e3, _⟩ := k3 m rfl hinv.cache
    have hstep : Ppm.step encode (.logProbs labels) m = .ok (.costs r, m') := by
      simp only [Ppm.step, wrap, getNegLogProbs]
      rw [show getNegLogProbsFrom (m.core.fst.start : Int) labels m = .ok (r, m') from e1]
    have hv : (Op.logProbs labels).Valid m := trivial
    refine ⟨.costs r, m', new, hstep, ⟨_, hr.append (.cons hv hstep .nil)⟩, ?_, n2, ?_, h.two⟩
    · rw [e3]; exact n1
    · rw [e3, k1.maxOrder]; exact h.order

theorem Keeps.uses (ha : o.alpha ≠ .nan) (hb : o.beta ≠ .nan) (hi : Initial Arith.xr OkR o m0) (hs : o.static = false) (calls : List Call) :
    ∀ {M : Memory} {ctxs : List (List Int)} {m : Model Arith.xr}, Keeps encode K M ctxs m0 m →
    ∃ (as : List (Answer Arith.xr)) (m' : Model Arith.xr) (ctxs' : List (List Int)), runCalls encode calls m = .ok (as, m') ∧
      Keeps encode K (M.uses K m0.chars (alphabet m0.symbols encode) calls) ctxs' m0 m' := by
  induction calls with
  | nil => intro M ctxs m h; exact ⟨[], m, ctxs, rfl, h⟩
  | cons call calls ih =>
    intro M ctxs m h
    obtain ⟨a, m1, new, k1, k2⟩ := h.use ha hb hi hs call
    obtain ⟨as, m2, ctxs', l1, l2⟩ := ih k2
    refine ⟨a :: as, m2, ctxs', ?_, l2⟩
    unfold runCalls
    rw [k1]
    simp only
    rw [l1]

/-! ## Probabilities -/

variable {V : Nat} {f : Fst XR}

theorem Holds.cnt (h : Holds K V M ctxs f) {s : Nat} {c : List Int} (hc : ctxs[s]? = some c) {y : Nat} (hy : y ≤ V) :
    cnt f s y = (M.count c (y : Nat) : ℝ) := by
  unfold Ppm.cnt
  rw [h.counts s c hc y hy]
  by_cases h0 : M.count c y = 0
  · rw [if_pos h0, h0]; simp
  · rw [if_neg h0]
    exact value_costOf (by positivity)

theorem Holds.total (h : Holds K V M ctxs f) {s : Nat} {c : List Int} (hc : ctxs[s]? = some c) :
    total f V s = ∑ z ∈ Finset.range (V + 1), (M.count c (z : Nat) : ℝ) :=
  Finset.sum_congr rfl fun y hy => h.cnt hc (by rw [Finset.mem_range] at hy; omega)

theorem Holds.distinct (h : Holds K V M ctxs f) {s : Nat} {c : List Int} (hc : ctxs[s]? = some c) :
    distinct f V s = ((Finset.range (V + 1)).filter fun z => 0 < M.count c (z : Nat)).card := by
  unfold Ppm.distinct
  congr 1
  refine Finset.filter_congr fun y hy => ?_
  rw [h.counts s c hc y (by rw [Finset.mem_range] at hy; omega)]
  by_cases h0 : M.count c y = 0
  · rw [if_pos h0]; simp [h0]
  · rw [if_neg h0]; simp; omega

theorem Holds.unseen_counts (h : Holds K V M ctxs f) {s : Nat} {c : List Int} (hc : ctxs[s]? = some c) (h0 : Ppm.total f V s = 0) :
    ∀ z : Nat, z ≤ V → M.count c z = 0 := by
  intro z hz
  rw [h.total hc, Finset.sum_eq_zero_iff_of_nonneg (fun y _ => by positivity)] at h0
  have := h0 z (by rw [Finset.mem_range]; omega)
  exact_mod_cast this

theorem Holds.seen_count (h : Holds K V M ctxs f) {s : Nat} {c : List Int} (hc : ctxs[s]? = some c) (hpos : 0 < Ppm.total f V s) :
    ∃ z : Nat, z ≤ V ∧ 0 < M.count c z := by
  by_contra hno
  rw [h.total hc] at hpos
  have : ∑ z ∈ Finset.range (V + 1), (M.count c (z : Nat) : ℝ) = 0 := by
    refine Finset.sum_eq_zero fun z hz => ?_
    rw [Finset.mem_range] at hz
    have : M.count c (z : Nat) = 0 := by
      apply Nat.eq_zero_of_not_pos
      intro hp
      exact hno ⟨z, by omega, hp⟩
    rw [this]; norm_num
  linarith

theorem Holds.prob (h : Holds K V M ctxs f) (hg : M.Grounded K V) {alpha beta p : ℝ} {y s : Nat} (hy : y ≤ V)
    (hp : Prob f alpha beta V y s p) : ∀ {c : List Int}, ctxs[s]? = some c → M.Prob alpha beta V y c p := by
  induction hp with
  | @unigram s hb =>
    intro c hc
    by_cases hne : c = []
    · subst hne
      rw [h.cnt hc hy, h.total hc]
      exact .nil
    · obtain ⟨b, hb', _⟩ := h.shorter hg hc hne
      rw [hb'] at hb; cases hb
  | @unseen s b p hb h0 _ ih =>
    intro c hc
    obtain ⟨hne, hbc⟩ := (h.backoff s c hc b).mp hb
    exact .unseen hne (h.unseen_counts hc h0) (ih hbc)
  | @seen s b p hb hpos _ ih =>
    intro c hc
    obtain ⟨hne, hbc⟩ := (h.backoff s c hc b).mp hb
    have hex := h.seen_count hc hpos
    have := Memory.Prob.seen (y := y) (alpha := alpha) (beta := beta) hne hex (ih hbc)
    rw [h.cnt hc hy, h.total hc, h.distinct hc]
    exact this

theorem Holds.norm (h : Holds K V M ctxs f) (hg : M.Grounded K V) {alpha n : ℝ} {s : Nat}
    (hp : Norm f alpha V s n) : ∀ {c : List Int}, ctxs[s]? = some c → M.Norm alpha V c n := by
  induction hp with
  | @unigram s hb =>
    intro c hc
    by_cases hne : c = []
    · subst hne
      rw [h.total hc]
      exact .nil
    · obtain ⟨b, hb', _⟩ := h.shorter hg hc hne
      rw [hb'] at hb; cases hb
  | @unseen s b p hb h0 _ ih =>
    intro c hc
    obtain ⟨hne, hbc⟩ := (h.backoff s c hc b).mp hb
    exact .unseen hne (h.unseen_counts hc h0) (ih hbc)
  | @seen s b hb hpos =>
    intro c hc
    obtain ⟨hne, hbc⟩ := (h.backoff s c hc b).mp hb
    rw [h.total hc]
    exact .seen hne (h.seen_count hc hpos)

theorem Memory.Norm.pos {M : Memory} {alpha n : ℝ} {c : List Int} (h : M.Norm alpha V c n) (ha : 0 ≤ alpha) (h0 : 0 < M.count [] 0) : 0 < n := by
  have key : ∀ d : List Int, (∃ z : Nat, z ≤ V ∧ 0 < M.count d z) → (0 : ℝ) < ∑ z ∈ Finset.range (V + 1), (M.count d (z : Nat) : ℝ) := by
    rintro d ⟨z, h1, h2⟩
    refine Finset.sum_pos' (fun y _ => by positivity) ⟨z, by rw [Finset.mem_range]; omega, by exact_mod_cast h2⟩
  induction h with
  | nil => have := key [] ⟨0, by omega, h0⟩; linarith
  | unseen _ _ _ ih => exact ih
  | @seen c _ hex => have := key c hex; linarith

/-- The model answers as the memory says: after every text, the scores of all symbols and the score of each are the
probabilities after the longest context known, which are positive and sum to one; the normalisation, which is positive,
is that of the memory. `V` symbols besides the end of string, named by `symbols`. -/
def Answers (o : Options XR) (encode : Int → Str) (symbols : SymbolTable) (V : Nat) (M : Memory) (m : Model Arith.xr) : Prop :=
  ∀ text : List Int, ∃ p : ℕ → ℝ,
    (∀ y ≤ V, 0 < p y ∧ M.Prob (effective o.alpha (1/2)) (effective o.beta (3/4)) V y
      (M.longest ((alphabet symbols encode).past text)) (p y)) ∧
    ∑ y ∈ Finset.range (V + 1), p y = 1 ∧
    (∃ (r : LMScores XR) (m' : Model Arith.xr), (Call.ask text).run encode m = .ok (.scores (some r), m') ∧
      r.symbols = [] :: symbols.tail.map Prod.snd ∧ r.probs = ((List.range (V + 1)).map fun y => .fin (p y)) ∧
      ∃ N : ℝ, r.norm = .fin N ∧ 0 < N ∧ M.Norm (effective o.alpha (1/2)) V (M.longest ((alphabet symbols encode).past text)) N) ∧
    ∀ sym : Int, 0 ≤ sym → ∃ m' : Model Arith.xr, (Call.score text sym).run encode m =
      .ok (.cost (match (alphabet symbols encode).taught sym with
        | some y => .fin (- Real.log (p y.toNat))
        | none => .pinf), m')

/-- A model that holds a memory answers as the memory says. -/
theorem Keeps.answers (ha : o.alpha ≠ .nan) (hb : o.beta ≠ .nan) {m0 m : Model Arith.xr} {M : Memory} {ctxs : List (List Int)}
    (hi : Initial Arith.xr OkR o m0) (ht : Totals m0.core.fst m0.chars) (h2 : Keeps encode K M ctxs m0 m) :
    Answers o encode m0.symbols m0.chars M m := by
  intro text
  obtain ⟨s, m1, k1, k2, k3⟩ := h2.contextState ha hb hi text
  obtain ⟨ord, u, hinv, hsym, _⟩ := k2.inv ha hb hi
  obtain ⟨tr, hr⟩ := k2.run
  obtain ⟨hch, _⟩ := C22_totals ha hb hi ht hr
  obtain ⟨p, N, r, m', l1, l2, l3, l4, l5, l6, l7⟩ := C23_scores ha hb hi ht hr (k2.holds.lt k3)
  obtain ⟨ord0, u0, i0, hd0, _⟩ := hi.known (laws_of o ha hb)
  have hlen : m1.symbols.length = m0.chars + 1 := by
    rw [hsym]
    have := congrArg List.length hd0.labels
    simpa using this
  rw [hlen] at l3 l5 l6
  rw [hch] at l5
  have hprob : ∀ y ≤ m0.chars, 0 < p y ∧ M.Prob (effective o.alpha (1/2)) (effective o.beta (3/4)) m0.chars y
      (M.longest ((alphabet m0.symbols encode).past text)) (p y) := by
    intro y hy
    obtain ⟨q1, q2⟩ := l5 y (by omega)
    exact ⟨q1, k2.holds.prob k2.grounded hy q2 k3⟩
  rw [hch] at l7
  have hnorm := k2.holds.norm k2.grounded l7 k3
  refine ⟨p, hprob, l6, ⟨r, m', ?_, ?_, l3, N, l4,
    hnorm.pos (effective_range o.alpha (d := 1/2) (by norm_num) (by norm_num)).1.le (k2.grounded.all 0 (by omega)), hnorm⟩, ?_⟩
  · simp only [Call.run, after, k1, wrap, l1]
  · rw [l2, hsym]
  · intro sym h0
    obtain ⟨a, m2, n1, n2⟩ := k2.step ha hb hi (op := .score s sym) (k2.holds.lt k3) trivial
    simp only [Ppm.step, wrap] at n1
    cases hc : symLMScore encode (s : Int) sym m1 with
    | error e => rw [hc] at n1; cases n1
    | ok cm =>
      obtain ⟨c, m3⟩ := cm
      rw [hc] at n1
      refine ⟨m3, ?_⟩
      simp only [Call.run, after, k1, wrap, hc]
      obtain ⟨q1, q2⟩ := C23_symbol_score ha hb hi ht hr (k2.holds.lt k3) hc
      rw [hsym, hch] at q1
      rw [hsym] at q2
      have hidx : (if sym = 0 then 0 else m0.symbols.findLabel (encode sym)) = symIndex encode m0.symbols sym := by
        unfold symIndex
        by_cases hz : sym = 0
        · rw [if_pos hz, hz]; rfl
        · rw [if_neg hz, if_pos (by omega)]
      rw [hidx] at q1 q2
      by_cases hneg : symIndex encode m0.symbols sym < 0
      · rw [taught_none.mpr hneg, q2 hneg]
      · rw [taught_some hneg]
        obtain ⟨y, hy⟩ := Int.eq_ofNat_of_zero_le (Int.not_lt.mp hneg)
        obtain ⟨p', z1, z2, z3⟩ := q1 y hy
        have hyV : y ≤ m0.chars := by
          have := symIndex_le i0.labels encode sym
          omega
        obtain ⟨_, w2⟩ := l5 y (by omega)
        rw [z3, z1.unique w2, hy]
        rfl

/-- **C76** A model that holds a memory goes on holding what the calls make of it: whatever the calls, the answer to
"what comes next after this text" is that of the memory. -/
theorem C76_history (ha : o.alpha ≠ .nan) (hb : o.beta ≠ .nan) (hs : o.static = false) {m0 : Model Arith.xr}
    (hi : Initial Arith.xr OkR o m0) (ht : Totals m0.core.fst m0.chars) {M0 : Memory} {ctxs : List (List Int)}
    (h0 : Holds K m0.chars M0 ctxs m0.core.fst) (hg : M0.Grounded K m0.chars) (hK : m0.core.maxOrder = K) (h2 : 2 ≤ K)
    (encode : Int → Str) (calls : List Call) :
    ∃ (as : List (Answer Arith.xr)) (m : Model Arith.xr), runCalls encode calls m0 = .ok (as, m) ∧
      Answers o encode m0.symbols m0.chars (M0.uses K m0.chars (alphabet m0.symbols encode) calls) m := by
  have hk : Keeps encode K M0 ctxs m0 m0 := ⟨⟨[], .nil⟩, h0, hg, hK, h2⟩
  obtain ⟨as, m, ctxs', h1, h2⟩ := hk.uses ha hb hi hs calls
  exact ⟨as, m, h1, h2.answers ha hb hi ht⟩

/-- A PPM model as it was read, that learns, with the memory `M` of contexts shorter than `K` in it. -/
structure Learner (o : Options XR) (K : Nat) (M : Memory) (m : Model Arith.xr) : Prop where
  alpha : o.alpha ≠ .nan
  beta : o.beta ≠ .nan
  adaptive : o.static = false
  initial : Initial Arith.xr OkR o m
  totals : Totals m.core.fst m.chars
  held : ∃ ctxs, Holds K m.chars M ctxs m.core.fst
  grounded : M.Grounded K m.chars
  order : m.core.maxOrder = K
  two : 2 ≤ K

theorem Learner.keeps {m0 : Model Arith.xr} {M : Memory} (h : Learner o K M m0) : ∃ ctxs, Keeps encode K M ctxs m0 m0 := by
  obtain ⟨ctxs, h0⟩ := h.held
  exact ⟨ctxs, ⟨[], .nil⟩, h0, h.grounded, h.order, h.two⟩
end

end Mozolm.Ppm
