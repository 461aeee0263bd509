import Verif.Ppm.Monotone
import Verif.Props.Ppm

/-!
# C22, C23, C61, C62: counts, totals and probabilities of the PPM model (exact arithmetic)

`Totals`, `Prob` and `Norm` are in `Ppm/NumSpec.lean`; `effective x d` is the parameter in use when `x`
was configured and `d` is the default.
-/

namespace Mozolm.Ppm
open XR
open scoped BigOperators
variable {o : Options XR}

/-! ## C22 -/

/-- **C22** A model read from a vocabulary alone has right totals. -/
theorem C22_vocabulary (ha : o.alpha ≠ .nan) (hb : o.beta ≠ .nan) {ls : List (List Str)} {m : Model Arith.xr}
    (hls : ∃ c ∈ ls.flatten, c ∉ epsilonTable.map Prod.snd)
    (hm : read Arith.xr o .none (some (some ls)) = pure m) : Totals m.core.fst m.chars := by
  obtain ⟨m', ord, V, k1, _, k3, _, _, k4, _⟩ := read_vocab_ok (A := Arith.xr) (Ok := OkR) (laws_of o ha hb) hls
  have : m = m' := Res.pure_inj (hm.symm.trans k1)
  subst this
  have hV : m.chars = V := k3.dense.chars
  rw [hV, k4]
  exact fresh_totals V

/-- **C22** A model read from a well-formed automaton with right totals, and perhaps a vocabulary, has
right totals. -/
theorem C22_automaton (ha : o.alpha ≠ .nan) (hb : o.beta ≠ .nan) {f : Fst XR} {t : SymbolTable} {ord : Nat → Nat}
    {mo : Int} {V u : Nat} (wf : WF Arith.xr OkR f ord mo V u) (ht : Dense t V) (hf : Totals f V) {src : Source XR}
    (hsrc : src = .fstFile (some (f, t)) ∨ src = .text (some (f, t))) {vocab : Option (List (List Str))}
    (hv : vocab ≠ some []) {m : Model Arith.xr} (hm : read Arith.xr o src (vocab.map some) = pure m) :
    Totals m.core.fst m.chars := by
  obtain ⟨m', V', k1, k2, k3, _, _, k4, _⟩ := read_fst_ok (A := Arith.xr) (Ok := OkR) (laws_of o ha hb) wf ht hsrc vocab hv
  have : m = m' := Res.pure_inj (hm.symm.trans k1)
  subst this
  have hV : m.chars = V' := k3.dense.chars
  rw [hV]
  exact k4.totals wf k2.wf hf

/-- **C22** Right totals stay right through any history of calls. -/
theorem C22_totals (ha : o.alpha ≠ .nan) (hb : o.beta ≠ .nan) {m0 m : Model Arith.xr} (hi : Initial Arith.xr OkR o m0)
    (ht : Totals m0.core.fst m0.chars) {encode : Int → Str} {tr : List (Op × Answer Arith.xr)}
    (hr : Run encode m0 tr m) : m.chars = m0.chars ∧ Totals m.core.fst m.chars := by
  obtain ⟨ord0, u, h0, _⟩ := hi.known (laws_of o ha hb)
  obtain ⟨ord, l, hinv, hp, hobs, _⟩ := run_inv hr h0
  have hc := Run.chars hr h0
  refine ⟨hc, ?_⟩
  rw [hc]
  exact hobs.totals h0.wf ht

/-! ## C23 -/

/-- **C23** After any history `ExtractLMScores` of an existing state reports, for end of string and each
character the model knows in the order of its table, the probability of the documented formula for the
current counts; they are positive and sum to one, and the normalization is `S(h) + alpha` of the longest
context with observations. -/
theorem C23_scores (ha : o.alpha ≠ .nan) (hb : o.beta ≠ .nan) {m0 m : Model Arith.xr} (hi : Initial Arith.xr OkR o m0)
    (ht : Totals m0.core.fst m0.chars) {encode : Int → Str} {tr : List (Op × Answer Arith.xr)}
    (hr : Run encode m0 tr m) {s : Nat} (hs : s < m.core.fst.states.length) :
    ∃ (p : ℕ → ℝ) (N : ℝ) (r : LMScores XR) (m' : Model Arith.xr), extractLMScores (s : Int) m = .ok (some r, m') ∧
      r.symbols = [] :: m.symbols.tail.map Prod.snd ∧
      r.probs = (List.range m.symbols.length).map (fun y => .fin (p y)) ∧ r.norm = .fin N ∧
      (∀ y < m.symbols.length, 0 < p y ∧
        Prob m.core.fst (effective o.alpha (1/2)) (effective o.beta (3/4)) m.chars y s (p y)) ∧
      ∑ y ∈ Finset.range m.symbols.length, p y = 1 ∧
      Norm m.core.fst (effective o.alpha (1/2)) m.chars s N := by
  have L := laws_of o ha hb
  obtain ⟨ord0, u, h0, hd0, hal, hbe⟩ := hi.known L
  obtain ⟨ord, l, hinv, hp, _⟩ := run_inv hr h0
  obtain ⟨hc, htot⟩ := C22_totals ha hb hi ht hr
  rw [← hc] at hinv hd0
  rw [← hp.symbols] at hd0
  have hlen : m.symbols.length = m.chars + 1 := by
    have := congrArg List.length hd0.labels
    simpa using this
  have e1 := effective_range o.alpha (d := 1/2) (by norm_num) (by norm_num)
  have e2 := effective_range o.beta (d := 3/4) (by norm_num) (by norm_num)
  have hpar := parameters o ha hb
  have hal' : m.alpha = .fin (effective o.alpha (1/2)) := by rw [hp.alpha, hal, hpar.1]
  have hbe' : m.beta = .fin (effective o.beta (3/4)) := by rw [hp.beta, hbe, hpar.2]
  obtain ⟨d, hd, hsz⟩ := hinv.wf.ideal hinv.laws m.alpha s hs
  obtain ⟨r, hr1, hr2, hr3, hr4⟩ := fill_ok hsz m.symbols
  obtain ⟨m', q1, _⟩ := extract_query (g := m.sig) hinv.laws hinv.wf hs hd hr1 m rfl hinv.cache
  rw [hal', hbe'] at hd
  obtain ⟨p, N, dist⟩ := ideal_dist hinv.wf htot e1.1 e2.1 e2.2 s hs d hd
  refine ⟨p, N, r, m', q1, ?_, ?_, ?_, ?_, ?_, dist.isNorm⟩
  · rw [hr4]
    congr 1
    exact hd0.symbols_tail
  · rw [hr3, dist.costs, hlen, List.map_map]
    refine List.map_congr_left fun y hy => ?_
    rw [List.mem_range] at hy
    exact expNeg_costOf (dist.pos y (by omega)).le
  · rw [hr2, dist.norm]; exact expNeg_costOf dist.norm_pos.le
  · intro y hy
    exact ⟨dist.pos y (by omega), dist.prob y (by omega)⟩
  · rw [hlen]; exact dist.sum

/-- **C23** After any history `SymLMScore` of an existing state is minus the logarithm of the probability
of that formula for end of string and symbols the model knows, and infinite for others. -/
theorem C23_symbol_score (ha : o.alpha ≠ .nan) (hb : o.beta ≠ .nan) {m0 m m' : Model Arith.xr}
    (hi : Initial Arith.xr OkR o m0) (ht : Totals m0.core.fst m0.chars) {encode : Int → Str}
    {tr : List (Op × Answer Arith.xr)} (hr : Run encode m0 tr m) {s : Nat} (hs : s < m.core.fst.states.length)
    {sym : Int} {c : XR} (hc : symLMScore encode (s : Int) sym m = .ok (c, m')) :
    (∀ y : Nat, (if sym = 0 then 0 else m.symbols.findLabel (encode sym)) = (y : Int) →
      ∃ p, Prob m.core.fst (effective o.alpha (1/2)) (effective o.beta (3/4)) m.chars y s p ∧ 0 < p ∧
        c = .fin (- Real.log p)) ∧
    ((if sym = 0 then 0 else m.symbols.findLabel (encode sym)) < 0 → c = .pinf) := by
  have L := laws_of o ha hb
  obtain ⟨ord0, u, h0, hd0, hal, hbe⟩ := hi.known L
  obtain ⟨ord, l, hinv, hp, _⟩ := run_inv hr h0
  obtain ⟨hc', htot⟩ := C22_totals ha hb hi ht hr
  rw [← hc'] at hinv
  have e1 := effective_range o.alpha (d := 1/2) (by norm_num) (by norm_num)
  have e2 := effective_range o.beta (d := 3/4) (by norm_num) (by norm_num)
  have hpar := parameters o ha hb
  have hal' : m.alpha = .fin (effective o.alpha (1/2)) := by rw [hp.alpha, hal, hpar.1]
  have hbe' : m.beta = .fin (effective o.beta (3/4)) := by rw [hp.beta, hbe, hpar.2]
  obtain ⟨d, hd, hsz⟩ := hinv.wf.ideal hinv.laws m.alpha s hs
  obtain ⟨w, hw, h1, h2⟩ := symLMScore_query (g := m.sig) hinv.laws hinv.wf hinv.labels encode sym hs hd
  obtain ⟨m1, q1, _⟩ := hw m rfl hinv.cache
  rw [hc] at q1
  injection q1 with q1
  injection q1 with q1 _
  subst q1
  rw [hal', hbe'] at hd
  obtain ⟨p, N, dist⟩ := ideal_dist hinv.wf htot e1.1 e2.1 e2.2 s hs d hd
  refine ⟨?_, h2⟩
  intro y hy
  have hy' := h1 y hy
  rw [dist.costs, List.getElem?_map] at hy'
  have hyV : y < m.chars + 1 := by
    by_contra hge
    rw [List.getElem?_eq_none (by simpa using hge)] at hy'
    cases hy'
  rw [List.getElem?_range hyV] at hy'
  simp only [Option.map_some, Option.some.injEq] at hy'
  refine ⟨p y, dist.prob y (by omega), dist.pos y (by omega), ?_⟩
  rw [← hy', costOf_pos (dist.pos y (by omega))]

/-! ## C61 -/

theorem mem_loops {A : Arith} {u V k : Nat} {a : Arc A.C} :
    a ∈ loops A u V k ↔ ∃ i, i < k ∧ a = { label := ((V + 1 + i : Nat) : Int), weight := A.one, next := u } := by
  unfold loops
  simp only [List.mem_map, List.mem_range]
  exact ⟨fun ⟨i, h1, h2⟩ => ⟨i, h1, h2.symm⟩, fun ⟨i, h1, h2⟩ => ⟨i, h1, h2.symm⟩⟩

theorem fresh_count {V y : Nat} (hy : y ≤ V) : count Arith.xr (freshFst Arith.xr V) 1 y = some (.fin 0) := by
  show stateCount Arith.xr ⟨.fin 0, loops Arith.xr 1 0 V⟩ y = some (.fin 0)
  unfold stateCount
  by_cases h0 : (y : Int) = 0
  · rw [if_pos h0, if_neg (by simp)]
  · rw [if_neg h0]
    obtain ⟨k, rfl⟩ : ∃ k, y = k + 1 := ⟨y - 1, by omega⟩
    have : (⟨((0 + 1 + k : Nat) : Int), .fin 0, 1⟩ : Arc XR) ∈ loops Arith.xr 1 0 V :=
      mem_loops.mpr ⟨k, by omega, rfl⟩
    cases hf : (loops Arith.xr 1 0 V).find? (fun a => a.label == ((k + 1 : Nat) : Int)) with
    | none =>
      have := List.find?_eq_none.mp hf _ this
      simp only [beq_iff_eq] at this
      omega
    | some a =>
      obtain ⟨j, _, rfl⟩ := mem_loops.mp (List.mem_of_find?_eq_some hf)
      rfl

/-- **C61** A model read from a vocabulary alone knows exactly the characters of the vocabulary (each
once), and before any update gives each of them and end of string the same probability after every
context. -/
theorem C61_fresh_uniform (ha : o.alpha ≠ .nan) (hb : o.beta ≠ .nan) {ls : List (List Str)} {m m' : Model Arith.xr}
    (hls : ∃ c ∈ ls.flatten, c ∉ epsilonTable.map Prod.snd)
    (hm : read Arith.xr o .none (some (some ls)) = pure m) {s : Nat} (hs : s < m.core.fst.states.length)
    {r : Option (LMScores XR)} (hr : extractLMScores (s : Int) m = .ok (r, m')) :
    ∃ (cs : List Str) (N : XR), cs.Nodup ∧ (∀ c, c ∈ cs ↔ c ∈ ls.flatten ∧ c ∉ epsilonTable.map Prod.snd) ∧
      r = some { symbols := [] :: cs, probs := List.replicate (cs.length + 1) (.fin (1 / (cs.length + 1))), norm := N } := by
  have hinit : Initial Arith.xr OkR o m := .vocabulary hls hm
  obtain ⟨p, N, r', m1, h1, h2, h3, h4, h5, _⟩ := C23_scores ha hb hinit (C22_vocabulary ha hb hls hm)
    (encode := fun _ => []) .nil hs
  rw [hr] at h1
  injection h1 with h1
  injection h1 with h1 _
  obtain ⟨m2, ord, V, k1, k2, k3, _, _, k4, _⟩ := read_vocab_ok (A := Arith.xr) (Ok := OkR) (laws_of o ha hb) hls
  have : m = m2 := Res.pure_inj (hm.symm.trans k1)
  subst this
  have hV : m.chars = V := k3.dense.chars
  have hlen : m.symbols.length = V + 1 := by simpa using congrArg List.length k3.dense.labels
  obtain ⟨l, hl⟩ := k3.kept
  have htail : m.symbols.tail = l := by rw [hl]; rfl
  have hnd := k3.dense.nodup
  rw [hl, List.map_append, List.nodup_append] at hnd
  have hcs : (l.map Prod.snd).length = V := by
    rw [List.length_map]; rw [hl] at hlen; simp [epsilonTable] at hlen; omega
  refine ⟨l.map Prod.snd, .fin N, hnd.2.1, ?_, ?_⟩
  · intro c
    have := k3.symbols c
    rw [hl, List.map_append, List.mem_append] at this
    constructor
    · intro hc
      have hne : c ∉ epsilonTable.map Prod.snd := fun he => hnd.2.2 c he c hc rfl
      exact ⟨(this.mp (.inr hc)).resolve_left hne, hne⟩
    · rintro ⟨hc, hne⟩
      exact (this.mpr (.inr hc)).resolve_left hne
  · have hp : ∀ y ≤ V, p y = 1 / ((V : ℝ) + 1) := by
      intro y hy
      have hprob := (h5 y (by omega)).2
      rw [hV, k4] at hprob
      have hcnt : ∀ z ≤ V, cnt (freshFst Arith.xr V) 1 z = 1 := by
        intro z hz
        rw [cnt_eq, fresh_count hz]
        show value (.fin 0) = 1
        rw [← costOf_one]; exact value_costOf (by norm_num)
      have htot : total (freshFst Arith.xr V) V 1 = (V : ℝ) + 1 := by
        unfold total
        rw [Finset.sum_congr rfl (fun z hz => hcnt z (by rw [Finset.mem_range] at hz; omega))]
        simp
      have hbo : backoff (freshFst Arith.xr V) 1 = none := by
        cases hbo : backoff (freshFst Arith.xr V) 1 with
        | none => rfl
        | some b => have := fresh_backoff hbo; omega
      have hu : Prob (freshFst Arith.xr V) (effective o.alpha (1/2)) (effective o.beta (3/4)) V y 1 (1 / ((V : ℝ) + 1)) := by
        have := Prob.unigram (alpha := effective o.alpha (1/2)) (beta := effective o.beta (3/4)) (V := V) (y := y) hbo
        rwa [hcnt y hy, htot] at this
      rw [k4] at hs
      match s, hs with
      | 0, _ =>
        have h0 : total (freshFst Arith.xr V) V 0 = 0 := by
          rw [total_eq]
          exact Finset.sum_eq_zero fun z _ => by rw [fresh_unseen V]; rfl
        exact hprob.unique (.unseen rfl h0 hu)
      | 1, _ => exact hprob.unique hu
      | s + 2, hs => simp [freshFst] at hs
    rw [h1]
    congr 1
    obtain ⟨r1, r2, r3⟩ := r'
    simp only at h2 h3 h4
    rw [h2, h3, h4, htail, hlen, hcs]
    congr 1
    refine List.ext_getElem? fun i => ?_
    by_cases hi : i < V + 1
    · rw [List.getElem?_map, List.getElem?_range hi, List.getElem?_replicate, if_pos hi, Option.map_some,
        hp i (by omega)]
    · rw [List.getElem?_eq_none (by simpa using hi), List.getElem?_eq_none (by simpa using hi)]

/-! ## C62 -/

/-- **C62** After any history, `UpdateLMCounts(s, {sym}, n)` with `n > 0` makes a symbol the model knows
strictly more probable after `s`: `SymLMScore` becomes strictly smaller. -/
theorem C62_update_raises (ha : o.alpha ≠ .nan) (hb : o.beta ≠ .nan) {m0 m m1 m2 m3 : Model Arith.xr}
    (hi : Initial Arith.xr OkR o m0) (ht : Totals m0.core.fst m0.chars) {encode : Int → Str}
    {tr : List (Op × Answer Arith.xr)} (hr : Run encode m0 tr m) (hdyn : o.static = false) {s : Nat}
    (hs : s < m.core.fst.states.length) {sym n : Int} (hsym : 0 ≤ sym) (hn : 0 < n)
    (hy : 0 ≤ if sym = 0 then 0 else m.symbols.findLabel (encode sym))
    {b : Bool} {before after : XR} (h1 : symLMScore encode (s : Int) sym m = .ok (before, m1))
    (h2 : updateLMCounts encode (s : Int) [sym] n m1 = .ok (b, m2))
    (h3 : symLMScore encode (s : Int) sym m2 = .ok (after, m3)) :
    ∃ x y : ℝ, before = .fin x ∧ after = .fin y ∧ y < x := by
  have L := laws_of o ha hb
  obtain ⟨ord0, u, h0, hd0, hal, hbe⟩ := hi.known L
  obtain ⟨ord, l, hinv, hp, _⟩ := run_inv hr h0
  obtain ⟨hc', htot⟩ := C22_totals ha hb hi ht hr
  obtain ⟨k, hk⟩ := Int.eq_ofNat_of_zero_le hy
  obtain ⟨p, hp1, hp0, hp2⟩ := (C23_symbol_score ha hb hi ht hr hs h1).1 k hk
  have e1 := effective_range o.alpha (d := 1/2) (by norm_num) (by norm_num)
  have e2 := effective_range o.beta (d := 3/4) (by norm_num) (by norm_num)
  -- after the query
  have hs1 : step encode (.score s sym) m = .ok (.cost before, m1) := by
    unfold step wrap; simp only [h1]
  obtain ⟨a, m1', _, _, hst, _⟩ := step_inv hinv encode (op := .score s sym) hs
  have hq : ∃ w, Query (symLMScore encode (s : Int) sym) m.sig w := by
    obtain ⟨d, hd, hsz⟩ := hinv.wf.ideal hinv.laws m.alpha s hs
    obtain ⟨w, hw, _⟩ := symLMScore_query (g := m.sig) hinv.laws hinv.wf hinv.labels encode sym hs hd
    exact ⟨w, hw⟩
  obtain ⟨w, hw⟩ := hq
  obtain ⟨m1'', q1, q2, q3⟩ := hw m rfl hinv.cache
  rw [h1] at q1
  injection q1 with q1
  injection q1 with _ q1
  subst q1
  have hr1 : Run encode m0 (tr ++ [(.score s sym, .cost before)]) m1 := hr.append (.cons hs hs1 .nil)
  obtain ⟨ord1, l1, hinv1, hp1', _⟩ := run_inv hr1 h0
  obtain ⟨hc1, htot1⟩ := C22_totals ha hb hi ht hr1
  have hs' : s < m1.core.fst.states.length := by rw [q2.core]; exact hs
  have hst1 : m1.static = false := by rw [hp1'.static, hi.static_eq]; exact hdyn
  -- the update
  obtain ⟨t, c', ord', hobs, _, _, hact⟩ := updateSymbol_action (g := m1.sig) hinv1.laws hinv1.wf (hinv1.orders hst1)
    hinv1.labels encode hn sym hs'
  have hidx : symIndex encode m1.sig.symbols sym = (k : Int) := by
    show symIndex encode m1.symbols sym = k
    rw [q2.symbols, ← hk]
    unfold symIndex
    by_cases hz : sym = 0
    · rw [if_neg (by omega), if_pos hz]; exact hz
    · rw [if_pos (by omega), if_neg hz]
  rw [hidx, if_neg (by omega)] at hobs
  obtain ⟨m2', f1, f2, f3, f4⟩ := hact m1 rfl hinv1.cache
  have hfull : updateLMCounts encode s [sym] n m1 = .ok (true, m2') := by
    unfold updateLMCounts
    rw [hst1, if_neg (by simp; omega)]
    refine orElse_some (a := ()) (f := fun _ => true) ?_
    show (updateSymbol encode n (s : Int) sym >>= fun t => updateSymbols encode n t []) m1 = _
    rw [PM.bind_some f1]; rfl
  rw [hfull] at h2
  injection h2 with h2
  injection h2 with _ h2
  subst h2
  have hs2 : step encode (.update s [sym] n) m1 = .ok (.ok true, m2') := by
    unfold step wrap; simp only [hfull]
  have hr2 : Run encode m0 ((tr ++ [(.score s sym, .cost before)]) ++ [(.update s [sym] n, .ok true)]) m2' :=
    hr1.append (.cons hs' hs2 .nil)
  have hlen := hobs.len
  rw [← f3] at hlen hobs
  have hk2 : (if sym = 0 then 0 else m2'.symbols.findLabel (encode sym)) = (k : Int) := by
    rw [f2.symbols, q2.symbols]; exact hk
  obtain ⟨q, hq1, hq0, hq2⟩ := (C23_symbol_score ha hb hi ht hr2 (s := s) (by
    show s < m2'.core.fst.states.length
    have : m1.core.fst.states.length ≤ m2'.core.fst.states.length := hlen
    omega) h3).1 k hk2
  refine ⟨_, _, hp2, hq2, ?_⟩
  have hkV : k ≤ m.chars := by
    rw [hc']
    have := hinv.labels (encode sym)
    by_cases hz : sym = 0
    · rw [if_pos hz] at hk; omega
    · rw [if_neg hz] at hk; omega
  have hchars2 : m2'.chars = m.chars := by unfold Model.chars; rw [f2.symbols, q2.symbols]
  have hchars1 : m1.chars = m.chars := by unfold Model.chars; rw [q2.symbols]
  rw [hchars2] at hq1
  rw [← q2.core] at hp1
  rw [hc1, ← hc'] at htot1
  obtain ⟨j, hj⟩ : ∃ j, n.toNat = j + 1 := ⟨n.toNat - 1, by omega⟩
  rw [hj] at hobs
  rw [← hc'] at hinv1 hobs
  have hlt := Observes.prob_lt e1.1 e2.1 e2.2 hkV j hobs hinv1.wf htot1 hs' hp1 hq1
  have := Real.log_lt_log hp0 hlt
  linarith

end Mozolm.Ppm
