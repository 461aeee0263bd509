import Verif.NGram.TextSpec
import Verif.Props.NGramNumeric

/-! # The computations of the character n-gram model meet `NGram/TextSpec.lean` -/

namespace Mozolm.NGram
open XR

/-- The first state with `P` on the backoff walk is unique. -/
theorem first_unique {C : Type} {f : Fst C} {P N : Nat → Prop} (hPN : ∀ u, P u → N u → False) : ∀ {s : Nat} {ws ws' : List C} {t t' : Nat},
    Walk f s ws t → Walk f s ws' t' → Before f s t N → Before f s t' N → P t → P t' → ws = ws' ∧ t = t' := by
  intro s ws ws' t t' hw
  induction hw generalizing ws' t' with
  | here s =>
    intro hw' _ hB' hx _
    by_cases he : ws' = []
    · subst he; cases hw'; exact ⟨rfl, rfl⟩
    · exact absurd (hB' [] ws' s (.here s) hw' he) fun h => hPN _ hx h
  | @step s b t0 ws u hbk hw ih =>
    intro hw' hB hB' hx hx'
    by_cases he : ws' = []
    · subst he
      cases hw'
      exact absurd (hB [] (b :: ws) s (.here s) (.step hbk hw) (by simp)) fun h => hPN _ hx' h
    · obtain ⟨ws'', rfl, hw''⟩ := hw'.tail hbk he
      obtain ⟨rfl, rfl⟩ := ih hw''
        (fun xs ys v hv hvu hne => hB (b :: xs) ys v (.step hbk hv) hvu hne)
        (fun xs ys v hv hvu hne => hB' (b :: xs) ys v (.step hbk hv) hvu hne) hx hx'
      exact ⟨rfl, rfl⟩

theorem FirstArc.clash {C : Type} {f : Fst C} {u : Nat} {l : Int} {x : C} {e : Nat} (h : FirstArc f u l x e) (hn : NoArc f u l) : False := by
  obtain ⟨st, pre, post, k1, k2, _⟩ := h
  exact hn st k1 ⟨l, x, e⟩ (by rw [k2]; simp) rfl

theorem FirstArc.unique {C : Type} {f : Fst C} {u : Nat} {l : Int} {x x' : C} {e e' : Nat} (h : FirstArc f u l x e) (h' : FirstArc f u l x' e') :
    x = x' ∧ e = e' := by
  obtain ⟨st, pre, post, k1, k2, k3⟩ := h
  obtain ⟨st', pre', post', k1', k2', k3'⟩ := h'
  rw [k1] at k1'; cases k1'
  have f1 : st.arcs.find? (fun a => a.label == l) = some ⟨l, x, e⟩ := by
    rw [List.find?_eq_some_iff_append]
    exact ⟨by simp, pre, post, k2, fun a ha => by simpa using k3 a ha⟩
  have f2 : st.arcs.find? (fun a => a.label == l) = some ⟨l, x', e'⟩ := by
    rw [List.find?_eq_some_iff_append]
    exact ⟨by simp, pre', post', k2', fun a ha => by simpa using k3' a ha⟩
  rw [f1] at f2
  cases f2
  exact ⟨rfl, rfl⟩

theorem Longest.unique {C : Type} {f : Fst C} {s : Nat} {l : Int} {ws ws' : List C} {w w' : C} {d d' : Nat}
    (h : Longest f s l ws w d) (h' : Longest f s l ws' w' d') : ws = ws' ∧ w = w' ∧ d = d' := by
  obtain ⟨t, g1, g2, g3⟩ := h
  obtain ⟨t', g1', g2', g3'⟩ := h'
  obtain ⟨rfl, rfl⟩ := first_unique (P := fun u => ∃ x e, FirstArc f u l x e) (fun u ⟨_, _, hx⟩ hn => hx.clash hn)
    g1 g1' g3 g3' ⟨w, d, g2⟩ ⟨w', d', g2'⟩
  exact ⟨rfl, g2.unique g2'⟩

theorem Longest.clash {C : Type} {f : Fst C} {s : Nat} {l : Int} {ws : List C} {w : C} {d : Nat}
    (h : Longest f s l ws w d) (hn : Nowhere f s l) : False := by
  obtain ⟨t, g1, g2, _⟩ := h
  exact g2.clash (hn _ _ g1)

theorem Costs.fold {ws : List XR} {ps : List ℝ} (h : Costs ws ps) : ∀ {a : ℝ}, 0 ≤ a →
    ws.foldl Arith.xr.times (costOf a) = costOf (a * ps.prod) ∧ 0 ≤ ps.prod := by
  induction h with
  | nil => intro a _; simp
  | @cons w p ws ps h _ ih =>
    intro a ha
    obtain ⟨hp, rfl⟩ := h
    obtain ⟨e1, e2⟩ := ih (a := a * p) (mul_nonneg ha hp)
    refine ⟨?_, by rw [List.prod_cons]; exact mul_nonneg hp e2⟩
    rw [List.prod_cons, ← mul_assoc, ← e1]
    exact congrArg (fun x => List.foldl Arith.xr.times x ws) (add_costOf ha hp)

theorem Costs.unique {ws : List XR} {ps qs : List ℝ} (h : Costs ws ps) (h' : Costs ws qs) : ps = qs := by
  induction h generalizing qs with
  | nil => cases h'; rfl
  | cons a _ ih =>
    cases h' with
    | cons b h' => rw [ih h', costOf_inj a.1 b.1 (a.2.symm.trans b.2)]

theorem costs_exist {ws : List XR} (h : ∀ w ∈ ws, ∃ p, 0 ≤ p ∧ w = costOf p) : ∃ ps, Costs ws ps := by
  induction ws with
  | nil => exact ⟨[], .nil⟩
  | cons w ws ih =>
    obtain ⟨p, hp⟩ := h w (by simp)
    obtain ⟨ps, hps⟩ := ih fun x hx => h x (by simp [hx])
    exact ⟨p :: ps, .cons hp hps⟩

theorem Worth.unique {f : Fst XR} {s : Nat} {l : Int} {p q : ℝ} (h : Worth f s l p) (h' : Worth f s l q) : p = q := by
  cases h with
  | found h0 h1 h2 =>
    cases h' with
    | found _ h1' h2' =>
      obtain ⟨rfl, rfl, rfl⟩ := h1.unique h1'
      rw [h2.unique h2']
    | nowhere _ hn => exact (h1.clash hn).elim
    | ends => exact absurd rfl h0
    | never => exact absurd rfl h0
  | nowhere h0 hn =>
    cases h' with
    | found _ h1' h2' => exact (h1'.clash hn).elim
    | nowhere _ _ => rfl
    | ends => exact absurd rfl h0
    | never => exact absurd rfl h0
  | @ends ws t st ps a b c d e =>
    cases h' with
    | found h0 => exact absurd rfl h0
    | nowhere h0 => exact absurd rfl h0
    | @ends ws' t' st' ps' a' b' c' d' e' =>
      obtain ⟨rfl, rfl⟩ := first_unique (P := fun u => ∃ x, f.states[u]? = some x ∧ x.final ≠ .pinf) (fun u ⟨x, hx, hn⟩ hN => hn (hN x hx))
        a a' d d' ⟨st, b, c⟩ ⟨st', b', c'⟩
      rw [b] at b'; cases b'
      rw [e.unique e']
    | never hn => exact absurd (hn _ _ _ a b) c
  | never hn =>
    cases h' with
    | found h0 => exact absurd rfl h0
    | nowhere h0 => exact absurd rfl h0
    | ends a b c _ _ => exact absurd (hn _ _ _ a b) c
    | never _ => rfl

theorem isInf_xr {x : XR} : Arith.xr.isInf x = true ↔ x = .pinf := by
  cases x <;> simp

theorem weights_unique {m : Model XR} {s : Nat} {ps qs : List ℝ} (h : Weights m s ps) (h' : Weights m s qs) : ps = qs := by
  have key : ∀ {ls : List Int} {ps qs : List ℝ}, Pointwise (Worth m.fst s) ls ps → Pointwise (Worth m.fst s) ls qs → ps = qs := by
    intro ls ps qs h
    induction h generalizing qs with
    | nil => intro h'; cases h'; rfl
    | cons a _ ih =>
      intro h'
      cases h' with
      | cons b h' => rw [ih h', a.unique b]
  exact key h h'

/-- A bound for every one of finitely many states. -/
theorem uniform_bound {P : Nat → Nat → Prop} : ∀ n, (∀ s, s < n → ∃ b, ∀ fuel, b ≤ fuel → P fuel s) → ∃ b, ∀ fuel, b ≤ fuel → ∀ s, s < n → P fuel s := by
  intro n
  induction n with
  | zero => intro _; exact ⟨0, fun _ _ s hs => absurd hs (Nat.not_lt_zero _)⟩
  | succ n ih =>
    intro h
    obtain ⟨b, hb⟩ := ih fun s hs => h s (by omega)
    obtain ⟨b', hb'⟩ := h n (by omega)
    refine ⟨max b b', fun fuel hf s hs => ?_⟩
    rcases Nat.lt_succ_iff_lt_or_eq.1 hs with h1 | rfl
    · exact hb fuel (by omega) s h1
    · exact hb' fuel (by omega)

/-- The searches, with one bound for all states and labels. -/
theorem searches {A : Arith} {f : Fst A.C} (hc : Closed f) (ha : Acyclic f) : ∃ bound, ∀ fuel, bound ≤ fuel → ∀ (unigram : Int) s, s < f.states.length →
    ∀ l, l ≠ 0 → l ≠ -1 →
      (∃ ws w d, Longest f s l ws w d ∧ nextModelState A f unigram l fuel s = .ok (d : Int) ∧
        labelCostInState A f fuel s l = .ok ((ws ++ [w]).foldl A.times A.one)) ∨
      (Nowhere f s l ∧ nextModelState A f unigram l fuel s = .ok unigram ∧ labelCostInState A f fuel s l = .ok A.inf) := by
  obtain ⟨rank, hr⟩ := ha
  obtain ⟨b, hb⟩ := uniform_bound (P := fun fuel s => rank s + 2 ≤ fuel) f.states.length fun s _ => ⟨rank s + 2, fun _ h => h⟩
  refine ⟨b, fun fuel hf unigram s hs l h0 h1 => ?_⟩
  simp only [labelCostInState, if_neg h0]
  exact search_spec f hc hr h0 h1 unigram (rank s + 1) s (by omega) hs fuel (hb fuel hf s hs) A.one

theorem ends_fold {ws : List XR} {z : XR} {ps : List ℝ} (h : Costs (ws ++ [z]) ps) :
    (if ws = [] then z else Arith.xr.times z (ws.foldl Arith.xr.times Arith.xr.one)) = costOf ps.prod ∧ 0 ≤ ps.prod := by
  obtain ⟨e1, e2⟩ := h.fold (a := 1) zero_le_one
  refine ⟨?_, e2⟩
  rw [one_mul, costOf_one] at e1
  rw [List.foldl_append] at e1
  simp only [List.foldl_cons, List.foldl_nil] at e1
  have one : Arith.xr.one = XR.fin 0 := rfl
  have hz : ∃ p, 0 ≤ p ∧ z = costOf p := by
    have : ∀ {l : List XR} {ps : List ℝ}, Costs l ps → ∀ w ∈ l, ∃ p, 0 ≤ p ∧ w = costOf p := by
      intro l ps h
      induction h with
      | nil => simp
      | cons a _ ih =>
        intro w hw
        rcases List.mem_cons.1 hw with rfl | hw
        · exact ⟨_, a⟩
        · exact ih w hw
    exact this h z (by simp)
  have hws : ∃ q, 0 ≤ q ∧ ws.foldl Arith.xr.times (XR.fin 0) = costOf q := by
    refine foldl_times (fun w hw => ?_) ⟨1, zero_le_one, costOf_one.symm⟩
    have : ∀ {l : List XR} {ps : List ℝ}, Costs l ps → ∀ w ∈ l, ∃ p, 0 ≤ p ∧ w = costOf p := by
      intro l ps h
      induction h with
      | nil => simp
      | cons a _ ih =>
        intro w hw
        rcases List.mem_cons.1 hw with rfl | hw
        · exact ⟨_, a⟩
        · exact ih w hw
    exact this h w (by simp [hw])
  obtain ⟨p, hp, rfl⟩ := hz
  obtain ⟨q, hq, e⟩ := hws
  have hcomm : ∀ {a b : ℝ}, 0 ≤ a → 0 ≤ b → Arith.xr.times (costOf a) (costOf b) = costOf (a * b) := fun ha hb => add_costOf ha hb
  rw [← e1]
  split
  · next hnil =>
    subst hnil
    simp only [List.foldl_nil] at e ⊢
    rw [← costOf_one, add_costOf zero_le_one hp, one_mul]
  · rw [one, e, hcomm hp hq, add_costOf hq hp, mul_comm]

/-- What a label is worth is what its cost says. -/
theorem worth_cost {f : Fst XR} (hc : Closed f) (ha : Acyclic f) (hw : Weighted f) : ∃ bound, ∀ fuel, bound ≤ fuel → ∀ s, s < f.states.length →
    ∀ l, l ≠ -1 → ∃ p, Worth f s l p ∧ 0 ≤ p ∧ labelCostInState Arith.xr f fuel s l = .ok (costOf p) := by
  obtain ⟨b1, h1⟩ := searches (A := Arith.xr) hc ha
  obtain ⟨b2, h2⟩ := uniform_bound f.states.length fun s hs => C34_end_of_string (A := Arith.xr) hc ha (s := s) hs
  refine ⟨max b1 b2, fun fuel hf s hs l hl => ?_⟩
  by_cases h0 : l = 0
  · subst h0
    rcases h2 fuel (by omega) s hs with ⟨ws, t, st, g1, g2, g3, g4, g5⟩ | ⟨g1, g2⟩
    · have hall : ∀ w ∈ ws ++ [st.final], ∃ p, 0 ≤ p ∧ w = costOf p := by
        intro w hw'
        rcases List.mem_append.1 hw' with h | h
        · exact walk_weights hw g1 w h
        · rw [List.mem_singleton.1 h]; exact (hw st (List.mem_of_getElem? g2)).1
      obtain ⟨ps, hps⟩ := costs_exist hall
      obtain ⟨e1, e2⟩ := ends_fold hps
      refine ⟨ps.prod, .ends g1 g2 (fun h => ?_) (fun ws ws' u a b c x hx => isInf_xr.1 (g4 ws ws' u a b c x hx)) hps, e2, by rw [g5, e1]⟩
      rw [isInf_xr.2 h] at g3
      cases g3
    · exact ⟨0, .never fun ws t x a b => isInf_xr.1 (g1 ws t x a b), le_refl _, by rw [g2, costOf_zero]⟩
  · rcases h1 fuel (by omega) 0 s hs l h0 hl with ⟨ws, w, d, hF, _, e⟩ | ⟨hn, _, e⟩
    · obtain ⟨t, g1, ⟨st, pre, post, g2, g3, g4⟩, g5⟩ := hF
      have hall : ∀ x ∈ ws ++ [w], ∃ p, 0 ≤ p ∧ x = costOf p := by
        intro x hx
        rcases List.mem_append.1 hx with hx | hx
        · exact walk_weights hw g1 x hx
        · rw [List.mem_singleton.1 hx]
          exact (hw st (List.mem_of_getElem? g2)).2 _ (by rw [g3]; simp : (⟨l, w, d⟩ : Arc XR) ∈ st.arcs)
      obtain ⟨ps, hps⟩ := costs_exist hall
      obtain ⟨e1, e2⟩ := hps.fold (a := 1) zero_le_one
      rw [one_mul, costOf_one] at e1
      exact ⟨ps.prod, .found h0 ⟨t, g1, ⟨st, pre, post, g2, g3, g4⟩, g5⟩ hps, e2, by rw [e]; exact congrArg _ e1⟩
    · exact ⟨0, .nowhere h0 hn, le_refl _, by rw [e, costOf_zero]⟩

theorem findLabel_of_mem {t : SymbolTable} (hn : (t.map Prod.snd).Nodup) {l : Int} {s : Str} (h : (l, s) ∈ t) : t.findLabel s = l := by
  have : t.find? (fun e => e.2 == s) = some (l, s) := by
    induction t with
    | nil => cases h
    | cons x t ih =>
      simp only [List.map_cons, List.nodup_cons] at hn
      rcases List.mem_cons.1 h with h | h
      · subst h; simp
      · have : (x.2 == s) = false := by
          simp only [beq_eq_false_iff_ne, ne_eq]
          intro e
          exact hn.1 (by rw [e]; exact List.mem_map.2 ⟨_, h, rfl⟩)
        simp only [List.find?_cons, this]
        exact ih hn.2 h
  simp only [SymbolTable.findLabel, this]

theorem findLabel_none {t : SymbolTable} {s : Str} (h : ∀ e ∈ t, e.2 ≠ s) : t.findLabel s = -1 := by
  have : t.find? (fun e => e.2 == s) = none := by
    rw [List.find?_eq_none]
    intro e he
    simpa using h e he
  simp [SymbolTable.findLabel, this]

/-- A model as it is read, whose table gives no string two labels and no string the label -1. -/
structure Tabled {A : Arith} (m : Model A.C) : Prop where
  closed : Closed m.fst
  acyclic : Acyclic m.fst
  unigram : 0 ≤ m.unigram ∧ m.unigram < m.fst.states.length
  oov : m.oov = m.symbols.findLabel unk
  strings : (m.symbols.map Prod.snd).Nodup
  labels : ∀ e ∈ m.symbols, e.1 ≠ -1

theorem Reads.label {A : Arith} {m : Model A.C} (h : Tabled m) {encode : Int → Str} {c l : Int} (hc : c ≠ 0) (hr : Reads encode m c l) :
    symLabel encode m c = l ∧ l ≠ -1 := by
  simp only [symLabel, if_neg hc]
  rcases hr with hr | ⟨hn, hr⟩
  · have := h.labels _ hr
    rw [findLabel_of_mem h.strings hr]
    exact ⟨if_neg this, this⟩
  · rw [findLabel_none hn, if_pos rfl, h.oov, findLabel_of_mem h.strings hr]
    exact ⟨rfl, h.labels _ hr⟩

/-- The state after a character is that of the specification. -/
theorem step_next {A : Arith} {m : Model A.C} (h : Tabled m) (encode : Int → Str) : ∃ bound, ∀ fuel, bound ≤ fuel → ∀ s, s < m.fst.states.length →
    ∀ c t, c ≠ 0 → Step encode m s c t → nextState encode fuel m s c = .ok (t : Int) ∧ t < m.fst.states.length := by
  obtain ⟨b, hb⟩ := searches (A := A) h.closed h.acyclic
  have hu := h.unigram
  refine ⟨max b 2, fun fuel hf s hs c t hc hst => ?_⟩
  have hcur : checkCurrentState m (s : Int) = s := by
    unfold checkCurrentState
    rw [if_neg (by omega)]
  have hoov : (∀ e ∈ m.symbols, e.2 ≠ encode c) → (∀ e ∈ m.symbols, e.2 ≠ unk) → OutOfVocabulary encode m c :=
    fun h1 h2 => ⟨hc, by rw [h.oov, findLabel_none h2], h1⟩
  obtain ⟨st, est⟩ := exists_getElem?_of_lt hs
  cases hst with
  | @found l ws w _ hr h0 hF =>
    obtain ⟨e1, e2⟩ := hr.label h hc
    simp only [nextState, hcur, e1]
    rcases hb fuel (by omega) m.unigram s hs l h0 e2 with ⟨ws', w', d', hF', e, _⟩ | ⟨hn, _, _⟩
    · obtain ⟨_, _, rfl⟩ := hF.unique hF'
      obtain ⟨u, _, ⟨st', pre, post, g1, g2, _⟩, _⟩ := hF
      exact ⟨e, h.closed.2 st' (List.mem_of_getElem? g1) ⟨l, w, t⟩ (by rw [g2]; simp)⟩
    · exact (hF.clash hn).elim
  | @nowhere l _ hr h0 hN hd =>
    obtain ⟨e1, e2⟩ := hr.label h hc
    simp only [nextState, hcur, e1]
    rcases hb fuel (by omega) m.unigram s hs l h0 e2 with ⟨ws', w', d', hF', e, _⟩ | ⟨_, e, _⟩
    · exact (hF'.clash hN).elim
    · exact ⟨by rw [e, hd], by omega⟩
  | @unknown w _ h1 h2 hF =>
    refine ⟨((C36_unknown_takes_backoff (hoov h1 h2) est (by omega : 2 ≤ fuel)).1 w t hF).1, ?_⟩
    obtain ⟨st', pre, post, g1, g2, _⟩ := hF
    exact h.closed.2 st' (List.mem_of_getElem? g1) ⟨0, w, t⟩ (by rw [g2]; simp)
  | @outside _ h1 h2 hN hd =>
    refine ⟨?_, by omega⟩
    rw [((C36_unknown_takes_backoff (hoov h1 h2) est (by omega : 2 ≤ fuel)).2 hN).1, hd]

/-- The reply at a state lists the shares. -/
theorem extract_shares {m : Model XR} (hc : Closed m.fst) (ha : Acyclic m.fst) (hw : Weighted m.fst) {eps : Str} {rest : SymbolTable}
    (ht : m.symbols = (0, eps) :: rest) (hn : (m.symbols.map Prod.fst).Nodup) (hneg : ∀ e ∈ m.symbols, e.1 ≠ -1) :
    ∃ bound, ∀ fuel, bound ≤ fuel → ∀ s, s < m.fst.states.length → ∃ ps : List ℝ, Weights m s ps ∧ (∀ p ∈ ps, 0 ≤ p) ∧
      (0 < ps.sum → extractLMScores (A := Arith.xr) fuel m s = .ok ⟨[] :: rest.map Prod.snd, ps.map fun p => XR.fin (p / ps.sum), XR.fin 1⟩) := by
  have hcur : ∀ s : Nat, checkCurrentState (A := Arith.xr) m s = s := by
    intro s
    unfold checkCurrentState
    rw [if_neg (by omega)]
  have hneg' : ∀ e ∈ rest, e.1 ≠ -1 := fun e he => hneg e (by rw [ht]; exact List.mem_cons_of_mem _ he)
  obtain ⟨b1, h1⟩ := worth_cost hc ha hw
  obtain ⟨b2, h2⟩ := uniform_bound m.fst.states.length fun s hs => C35_distribution hc ha hw ht hn hneg' (hcur s) hs
  refine ⟨max b1 b2, fun fuel hf s hs => ?_⟩
  obtain ⟨ps, hps, hpw, hr⟩ := h2 fuel (by omega) s hs
  refine ⟨ps, ?_, hps, fun hpos => ?_⟩
  · have key : ∀ {ls : List Int} {ps : List ℝ}, Pointwise (fun l p => labelCostInState Arith.xr m.fst fuel s l = .ok (costOf p)) ls ps →
        (∀ p ∈ ps, 0 ≤ p) → (∀ l ∈ ls, l ≠ -1) → Pointwise (Worth m.fst s) ls ps := by
      intro ls ps h
      induction h with
      | nil => intro _ _; exact .nil
      | @cons l p ls ps a _ ih =>
        intro h3 h4
        obtain ⟨q, g1, g2, g3⟩ := h1 fuel (by omega) s hs l (h4 l (by simp))
        rw [a] at g3
        injection g3 with g3
        rw [costOf_inj (h3 p (by simp)) g2 g3]
        exact .cons g1 (ih (fun x hx => h3 x (by simp [hx])) fun x hx => h4 x (by simp [hx]))
    unfold Weights
    rw [ht]
    refine key hpw hps fun l hl => ?_
    rcases List.mem_cons.1 hl with rfl | hl
    · decide
    · obtain ⟨x, hx, rfl⟩ := List.mem_map.1 hl
      exact hneg' x hx
  · obtain ⟨r, e, a1, a2, _, _, a3⟩ := hr hpos
    rw [e]
    obtain ⟨x, y, z⟩ := r
    simp only at a1 a2 a3
    rw [a1, a2, a3]

end Mozolm.NGram
