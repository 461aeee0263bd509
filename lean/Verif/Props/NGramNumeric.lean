import Verif.Props.NGram
import Verif.XR
import Verif.Scores.Numeric

/-!
# C34 (costs as real numbers) and C35: scores of the character n-gram model

Exact real arithmetic.
-/

namespace Mozolm.NGram
open XR

/-- Every weight of the automaton is a cost: a finite number or infinity, i.e. the cost of some
non-negative number. -/
def Weighted (f : Fst XR) : Prop :=
  ∀ st ∈ f.states, (∃ p, 0 ≤ p ∧ st.final = costOf p) ∧ ∀ a ∈ st.arcs, ∃ p, 0 ≤ p ∧ a.weight = costOf p

theorem fin_eq_costOf (r : ℝ) : XR.fin r = costOf (Real.exp (-r)) := by
  rw [costOf_pos (Real.exp_pos _), Real.log_exp, neg_neg]

theorem foldl_times {ws : List XR} (h : ∀ w ∈ ws, ∃ p, 0 ≤ p ∧ w = costOf p) {c : XR}
    (hc : ∃ p, 0 ≤ p ∧ c = costOf p) : ∃ p, 0 ≤ p ∧ ws.foldl Arith.xr.times c = costOf p := by
  induction ws generalizing c with
  | nil => exact hc
  | cons w ws ih =>
    obtain ⟨p, hp, rfl⟩ := hc
    obtain ⟨q, hq, rfl⟩ := h w (by simp)
    exact ih (fun x hx => h x (by simp [hx])) ⟨p * q, mul_nonneg hp hq, add_costOf hp hq⟩

theorem walk_weights {f : Fst XR} (hw : Weighted f) {s t : Nat} {ws : List XR} (h : Walk f s ws t) :
    ∀ w ∈ ws, ∃ p, 0 ≤ p ∧ w = costOf p := by
  induction h with
  | here => simp
  | step hb _ ih =>
    intro w hw'
    rcases List.mem_cons.1 hw' with e | e
    · obtain ⟨st, pre, post, h1, h2, _⟩ := hb
      rw [e]
      exact (hw st (List.mem_of_getElem? h1)).2 _
        (h2 ▸ List.mem_append_right _ (List.mem_cons_self ..))
    · exact ih w e

/-- The cost of any label of the vocabulary (and of the end of string) at any state is the cost of some
non-negative number; the bound on the fuel does not depend on the label. -/
theorem labelCost_isCost {f : Fst XR} (hc : Closed f) (ha : Acyclic f) (hw : Weighted f) {s : Nat}
    (hs : s < f.states.length) : ∃ bound, ∀ fuel, bound ≤ fuel → ∀ label, label ≠ -1 →
      ∃ p, 0 ≤ p ∧ labelCostInState Arith.xr f fuel s label = .ok (costOf p) := by
  obtain ⟨b0, h0⟩ := C34_end_of_string (A := Arith.xr) hc ha hs
  obtain ⟨rank, hr⟩ := ha
  refine ⟨max b0 (rank s + 2), fun fuel hf label h1 => ?_⟩
  have hone : ∃ p : ℝ, 0 ≤ p ∧ Arith.xr.one = costOf p := ⟨1, zero_le_one, costOf_one.symm⟩
  by_cases hl : label = 0
  · subst hl
    rcases h0 fuel (by omega) with ⟨ws, t, st, g1, g2, _, _, g5⟩ | ⟨_, g⟩
    · obtain ⟨p, hp, hpe⟩ := (hw st (List.mem_of_getElem? g2)).1
      by_cases e : ws = []
      · rw [g5, if_pos e]; exact ⟨p, hp, by rw [hpe]⟩
      · obtain ⟨q, hq, hqe⟩ := foldl_times (walk_weights hw g1) hone
        refine ⟨p * q, mul_nonneg hp hq, ?_⟩
        rw [g5, if_neg e, hqe, hpe]
        exact congrArg _ (add_costOf hp hq)
    · exact ⟨0, le_refl _, by rw [g, costOf_zero]⟩
  · simp only [labelCostInState, if_neg hl]
    rcases search_spec (A := Arith.xr) f hc hr hl h1 0 (rank s + 1) s (by omega) hs fuel (by omega)
      Arith.xr.one with ⟨ws, w, d, ⟨t, g1, ⟨st, pre, post, g2, g3, _⟩, _⟩, _, e⟩ | ⟨_, _, e⟩
    · have hall : ∀ x ∈ ws ++ [w], ∃ p, 0 ≤ p ∧ x = costOf p := by
        intro x hx
        rcases List.mem_append.1 hx with hx | hx
        · exact walk_weights hw g1 x hx
        · rw [List.mem_singleton.1 hx]
          exact (hw st (List.mem_of_getElem? g2)).2 _ (by rw [g3]; simp :
            (⟨label, w, d⟩ : Arc XR) ∈ st.arcs)
      obtain ⟨p, hp, hpe⟩ := foldl_times hall hone
      exact ⟨p, hp, by rw [e, hpe]⟩
    · exact ⟨0, le_refl _, by rw [e, costOf_zero]⟩

/-- **C34** in numbers: when the label is found after backoff costs `rs` with an arc of cost `r`, the
cost is their sum. -/
theorem C34_cost_is_sum {f : Fst XR} (hc : Closed f) (ha : Acyclic f) {label : Int} (h0 : label ≠ 0)
    (h1 : label ≠ -1) {s : Nat} (hs : s < f.states.length) {rs : List ℝ} {r : ℝ} {d : Nat}
    (hF : Found (A := Arith.xr) f s label (rs.map XR.fin) (XR.fin r) d) :
    ∃ bound, ∀ fuel, bound ≤ fuel →
      labelCostInState Arith.xr f fuel s label = .ok (XR.fin (rs.sum + r)) := by
  obtain ⟨b, hb⟩ := C34_longest_match (A := Arith.xr) hc ha 0 h0 h1 hs
  refine ⟨b, fun fuel hf => ?_⟩
  have fold : ∀ (l : List ℝ) (x : ℝ), (l.map XR.fin).foldl Arith.xr.times (XR.fin x) =
      XR.fin (x + l.sum) := by
    intro l
    induction l with
    | nil => intro x; simp
    | cons a l ih =>
      intro x
      simp only [List.map_cons, List.foldl_cons, List.sum_cons]
      have : XR.add (XR.fin x) (XR.fin a) = XR.fin (x + a) := rfl
      rw [this, ← add_assoc]
      exact ih (x + a)
  rcases hb fuel hf with ⟨ws, w, d', hF', _, e⟩ | ⟨hno, _, _⟩
  · -- the first state with the label is unique
    have uniq : ws = rs.map XR.fin ∧ w = XR.fin r := by
      obtain ⟨t, g1, g2, g3⟩ := hF
      obtain ⟨t', g1', g2', g3'⟩ := hF'
      have arcContra : ∀ {u : Nat} {x : XR} {e : Nat}, FirstArc f u label x e → NoArc f u label →
          False := by
        rintro u x e ⟨st, pre, post, k1, k2, _⟩ hn
        exact hn st k1 ⟨label, x, e⟩ (by rw [k2]; simp) rfl
      have main : ∀ {s : Nat} {ws ws' : List XR} {t t' : Nat}, Walk f s ws t → Walk f s ws' t' →
          Before f s t (fun u => NoArc f u label) → Before f s t' (fun u => NoArc f u label) →
          (∃ x e, FirstArc f t label x e) → (∃ x e, FirstArc f t' label x e) → ws = ws' ∧ t = t' := by
        intro s ws ws' t t' hw
        induction hw generalizing ws' t' with
        | here s =>
          intro hw' _ hB' ⟨x, e, hx⟩ _
          by_cases he : ws' = []
          · subst he; cases hw'; exact ⟨rfl, rfl⟩
          · exact absurd (hB' [] ws' s (.here s) hw' he) fun h => arcContra hx h
        | @step s b t0 ws u hbk hw ih =>
          intro hw' hB hB' hx ⟨x', e', hx'⟩
          by_cases he : ws' = []
          · subst he
            cases hw'
            exact absurd (hB [] (b :: ws) s (.here s) (.step hbk hw) (by simp))
              fun h => arcContra hx' h
          · obtain ⟨ws'', rfl, hw''⟩ := hw'.tail hbk he
            obtain ⟨rfl, rfl⟩ := ih hw''
              (fun xs ys v hv hvu hne => hB (b :: xs) ys v (.step hbk hv) hvu hne)
              (fun xs ys v hv hvu hne => hB' (b :: xs) ys v (.step hbk hv) hvu hne) hx ⟨x', e', hx'⟩
            exact ⟨rfl, rfl⟩
      obtain ⟨rfl, rfl⟩ := main g1' g1 g3' g3 ⟨w, d', g2'⟩ ⟨_, d, g2⟩
      refine ⟨rfl, ?_⟩
      obtain ⟨st, pre, post, k1, k2, k3⟩ := g2
      obtain ⟨st', pre', post', k1', k2', k3'⟩ := g2'
      rw [k1] at k1'; cases k1'
      have f1 : st.arcs.find? (fun a => a.label == label) = some ⟨label, XR.fin r, d⟩ := by
        rw [List.find?_eq_some_iff_append]
        exact ⟨by simp, pre, post, k2, fun a ha => by simpa using k3 a ha⟩
      have f2 : st.arcs.find? (fun a => a.label == label) = some ⟨label, w, d'⟩ := by
        rw [List.find?_eq_some_iff_append]
        exact ⟨by simp, pre', post', k2', fun a ha => by simpa using k3' a ha⟩
      rw [f1] at f2
      cases f2
      rfl
    rw [e, uniq.1, uniq.2]
    have : (rs.map XR.fin ++ [XR.fin r]) = (rs ++ [r]).map XR.fin := by simp
    rw [this]
    have h2 := fold (rs ++ [r]) 0
    simp only [List.sum_append, List.sum_cons, List.sum_nil, add_zero, zero_add] at h2
    exact congrArg _ h2
  · exfalso
    obtain ⟨t, g1, ⟨st, pre, post, k1, k2, _⟩, _⟩ := hF
    exact hno _ _ g1 st k1 ⟨label, XR.fin r, d⟩ (by rw [k2]; simp) rfl

theorem costsOf_spec {f : Fst XR} {fuel s : Nat} {labels : List Int}
    (h : ∀ l ∈ labels, ∃ p, 0 ≤ p ∧ labelCostInState Arith.xr f fuel s l = .ok (costOf p)) :
    ∃ ps : List ℝ, costsOf Arith.xr f fuel s labels = .ok (ps.map costOf) ∧ (∀ p ∈ ps, 0 ≤ p) ∧
      Pointwise (fun l p => labelCostInState Arith.xr f fuel s l = .ok (costOf p)) labels ps := by
  induction labels with
  | nil => exact ⟨[], rfl, by simp, .nil⟩
  | cons l ls ih =>
    obtain ⟨p, hp, e⟩ := h l (by simp)
    obtain ⟨ps, e', hps, hpw⟩ := ih fun x hx => h x (by simp [hx])
    refine ⟨p :: ps, by simp [costsOf, e, e'], ?_, .cons e hpw⟩
    intro q hq
    rcases List.mem_cons.1 hq with rfl | hq
    · exact hp
    · exact hps q hq

theorem findSymbol_of_mem {t : SymbolTable} (hn : (t.map Prod.fst).Nodup) {l : Int} {s : Str}
    (h : (l, s) ∈ t) : t.findSymbol l = s := by
  have : t.find? (fun e => e.1 == l) = some (l, s) := by
    induction t with
    | nil => cases h
    | cons x t ih =>
      simp only [List.map_cons, List.nodup_cons] at hn
      rcases List.mem_cons.1 h with h | h
      · subst h; simp
      · have : (x.1 == l) = false := by
          simp only [beq_eq_false_iff_ne, ne_eq]
          intro e
          exact hn.1 (by rw [e]; exact List.mem_map.2 ⟨_, h, rfl⟩)
        simp only [List.find?_cons, this]
        exact ih hn.2 h
  simp only [SymbolTable.findSymbol, this]

/-- **C35** For every weighted automaton with acyclic backoff, a symbol table of distinct labels
beginning with epsilon, and every existing state (or -1): `ExtractLMScores` lists the end of string
first and then every other symbol in table order; with `p` the number whose cost `SymLMScore`'s search
gives each label, the probabilities are `p / Σ p`: they are non-negative and sum to one, provided some
cost is finite. -/
theorem C35_distribution {m : Model XR} (hc : Closed m.fst) (ha : Acyclic m.fst)
    (hw : Weighted m.fst) {eps : Str} {rest : SymbolTable} (ht : m.symbols = (0, eps) :: rest)
    (hn : (m.symbols.map Prod.fst).Nodup) (hneg : ∀ e ∈ rest, e.1 ≠ -1) {s : Int} {c : Nat}
    (hcur : checkCurrentState (A := Arith.xr) m s = c) (hs : c < m.fst.states.length) :
    ∃ bound, ∀ fuel, bound ≤ fuel → ∃ ps : List ℝ, (∀ p ∈ ps, 0 ≤ p) ∧
      Pointwise (fun l p => labelCostInState Arith.xr m.fst fuel c l = .ok (costOf p))
        (0 :: rest.map Prod.fst) ps ∧
      (0 < ps.sum → ∃ r, extractLMScores (A := Arith.xr) fuel m s = .ok r ∧
        r.symbols = [] :: rest.map Prod.snd ∧
        r.probs = ps.map (fun p => XR.fin (p / ps.sum)) ∧
        (∀ p ∈ ps, 0 ≤ p / ps.sum) ∧ (ps.map fun p => p / ps.sum).sum = 1 ∧ r.norm = XR.fin 1) := by
  obtain ⟨b, hb⟩ := labelCost_isCost hc ha hw hs
  refine ⟨b, fun fuel hf => ?_⟩
  obtain ⟨ps, e, hps, hpw⟩ := costsOf_spec (f := m.fst) (fuel := fuel) (s := c)
    (labels := 0 :: rest.map Prod.fst) (by
      intro l hl
      apply hb fuel hf
      rcases List.mem_cons.1 hl with rfl | hl
      · decide
      · obtain ⟨x, hx, rfl⟩ := List.mem_map.1 hl
        exact hneg x hx)
  refine ⟨ps, hps, hpw, fun hpos => ?_⟩
  have hprob : (ps.map fun p => costOf (p / ps.sum)).map Arith.xr.prob =
      ps.map fun p => XR.fin (p / ps.sum) := by
    rw [List.map_map]
    apply List.map_congr_left
    intro p hp
    exact expNeg_costOf (div_nonneg (hps p hp) hpos.le)
  refine ⟨{ symbols := [] :: rest.map Prod.snd, probs := ps.map fun p => XR.fin (p / ps.sum)
            norm := XR.fin 1 }, ?_, rfl, rfl, fun p hp => div_nonneg (hps p hp) hpos.le,
    by rw [Scores.sum_map_div, div_self hpos.ne'], rfl⟩
  simp only [extractLMScores, hcur, ht, List.tail_cons]
  rw [e]
  simp only [ok_bind]
  rw [Scores.softmax_costOf hps hpos]
  simp only [ok_bind, hprob]
  have hsym : (rest.map Prod.fst).map (SymbolTable.findSymbol ((0, eps) :: rest)) =
      rest.map Prod.snd := by
    rw [List.map_map]
    apply List.map_congr_left
    intro x hx
    exact findSymbol_of_mem (by rw [← ht]; exact hn) (by simp [hx])
  rw [hsym]
  simp

/-- The hypotheses are met: a bigram model over `a` with state 0 = unigram, backoff from 1 to 0. -/
noncomputable def demoXR : Fst XR :=
  { start := 1
    states := [ { final := XR.fin 1, arcs := [⟨1, XR.fin 2, 0⟩] },
                { final := XR.pinf, arcs := [⟨0, XR.fin 3, 0⟩, ⟨1, XR.fin 1, 1⟩] } ] }

example : Closed demoXR ∧ Acyclic demoXR ∧ Weighted demoXR := by
  refine ⟨⟨by simp [demoXR], by simp [demoXR]⟩, ⟨id, ?_⟩, ?_⟩
  · rintro s w t ⟨st, pre, post, h1, h2, h3, _⟩
    have hm : (⟨0, w, t⟩ : Arc XR) ∈ st.arcs := by rw [h2]; simp
    match s, h1 with
    | 0, h1 => cases h1; simp at hm
    | 1, h1 => cases h1; simp at hm; simp [hm.2]
    | n + 2, h1 => simp [demoXR] at h1
  · intro st hst
    simp only [demoXR, List.mem_cons, List.not_mem_nil, or_false] at hst
    have hf : ∀ r : ℝ, ∃ p, 0 ≤ p ∧ XR.fin r = costOf p := fun r => ⟨_, (Real.exp_pos _).le, fin_eq_costOf r⟩
    rcases hst with rfl | rfl
    · refine ⟨hf 1, ?_⟩
      intro a ha
      simp only [List.mem_cons, List.not_mem_nil, or_false] at ha
      subst ha
      exact hf 2
    · refine ⟨⟨0, le_refl _, costOf_zero.symm⟩, ?_⟩
      intro a ha
      simp only [List.mem_cons, List.not_mem_nil, or_false] at ha
      rcases ha with rfl | rfl
      · exact hf 3
      · exact hf 1

end Mozolm.NGram
