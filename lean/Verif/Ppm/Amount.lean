import Verif.Ppm.Near

/-! # How many observations a call makes -/

namespace Mozolm.Ppm
open scoped BigOperators

section
variable {A : Arith} {Ok : A.C → Prop} {V u : Nat}

theorem updateSymbols_amount (encode : Int → Str) {count : Int} (hcount : 0 < count) (syms : List Int) :
    ∀ {g : Sig A} {ord : Nat → Nat}, CountLaws A Ok g.beta →
    WF A Ok g.core.fst ord g.core.maxOrder V u → OrdersOk g.core ord →
    (∀ str, g.symbols.findLabel str ≤ V) → ∀ {s : Nat}, s < g.core.fst.states.length →
    ∃ (c' : Core A.C) (ord' : Nat → Nat) (h : List (Nat × Int)), Observes A Ok V u g.core ord h c' ord' ∧
      h.length ≤ syms.length * count.toNat ∧ Action (updateSymbols encode count (s : Int) syms) g () c' := by
  induction syms with
  | nil =>
    intro g ord _ _ _ _ s _
    exact ⟨g.core, ord, [], .nil, by simp, fun m hm hc => ⟨m, rfl, Params.refl m, sig_core hm, hc⟩⟩
  | cons y ys ih =>
    intro g ord L wf ho hl s hs
    obtain ⟨t, c1, ord1, h1, h2, _, h4⟩ := updateSymbol_action L wf ho hl encode hcount y hs
    obtain ⟨c2, ord2, l, h5, h6, h7⟩ := ih (g := { g with core := c1 }) L (h1.wf wf) (h1.orders ho) hl h2
    refine ⟨c2, ord2, _, h1.append h5, ?_, h4.bind h7⟩
    rw [List.length_append, List.length_cons, Nat.succ_mul]
    split
    · simp only [List.length_nil]; omega
    · rw [List.length_replicate]; omega

theorem Scored.amount {alpha beta : A.D} {c c' : Core A.C} {ord ord' : Nat → Nat} {s : Nat} {ys : List Int} {r : Option (List A.C)}
    (h : Scored A Ok V u alpha beta c ord s ys r c' ord') :
    ∃ l, Observes A Ok V u c ord l c' ord' ∧ l.length ≤ ys.length := by
  induction h with
  | nil => exact ⟨[], .nil, by simp⟩
  | stop _ => exact ⟨[], .nil, by simp⟩
  | cons hy hs _ _ hobs _ _ ih =>
    obtain ⟨l, h1, h2⟩ := ih
    exact ⟨_, .cons hs (by omega) (by omega) hobs h1, by simp only [List.length_cons]; omega⟩

theorem step_amount {m m' : Model A} {ord : Nat → Nat} (hi : Inv A Ok m ord V u) (encode : Int → Str) {op : Op} (hv : op.Valid m) {a : Answer A}
    (hs : step encode op m = .ok (a, m')) :
    ∃ (ord' : Nat → Nat) (l : List (Nat × Int)), Observes A Ok V u m.core ord l m'.core ord' ∧ l.length ≤ op.amount ∧ Inv A Ok m' ord' V u := by
  have key : ∀ {c' : Core A.C} {ord' : Nat → Nat} {l : List (Nat × Int)} {a' : Answer A}, Observes A Ok V u m.core ord l c' ord' →
      Effect (step encode op) m.sig a' c' → l.length ≤ op.amount →
      ∃ (ord' : Nat → Nat) (l : List (Nat × Int)), Observes A Ok V u m.core ord l m'.core ord' ∧ l.length ≤ op.amount ∧ Inv A Ok m' ord' V u := by
    intro c' ord' l a' h1 h2 h3
    obtain ⟨m1, e1, e2, e3, e4⟩ := h2 m rfl hi.cache
    rw [hs] at e1
    simp only [Except.ok.injEq, Prod.mk.injEq] at e1
    obtain ⟨_, rfl⟩ := e1
    subst e3
    exact ⟨ord', l, h1, h3, hi.after h1 e2 e4⟩
  cases op with
  | next s sym =>
    obtain ⟨t, _, _, h3⟩ := nextState_query (g := m.sig) hi.laws hi.wf hi.labels encode sym hv
    exact key .nil (h3.effect.wrap Answer.state) (Nat.zero_le _)
  | scores s =>
    obtain ⟨d, hd, hsz⟩ := hi.wf.ideal hi.laws m.alpha s hv
    obtain ⟨r, hr, _⟩ := fill_ok hsz m.symbols
    exact key .nil ((extract_query (g := m.sig) hi.laws hi.wf hv hd hr).effect.wrap Answer.scores) (Nat.zero_le _)
  | score s sym =>
    obtain ⟨d, hd, hsz⟩ := hi.wf.ideal hi.laws m.alpha s hv
    obtain ⟨w, hw, _⟩ := symLMScore_query (g := m.sig) hi.laws hi.wf hi.labels encode sym hv hd
    exact key .nil (hw.effect.wrap Answer.cost) (Nat.zero_le _)
  | update s syms count =>
    by_cases hno : (m.static || decide (count ≤ 0)) = true
    · refine key (a' := .ok true) .nil (Effect.wrap Answer.ok (b := true) (c' := m.core) ?_) (Nat.zero_le _)
      intro n hm hc
      refine ⟨n, ?_, Params.refl n, sig_core hm, hc⟩
      unfold updateLMCounts
      rw [sig_static hm, if_pos (by exact hno)]
    · have hst : m.static = false := by
        cases h : m.static with
        | false => rfl
        | true => rw [h] at hno; simp at hno
      have hcount : 0 < count := by
        rw [hst] at hno; simp at hno; exact hno
      obtain ⟨c', ord', h, h1, h2, h3⟩ := updateSymbols_amount (g := m.sig) encode hcount syms hi.laws hi.wf (hi.orders hst) hi.labels hv
      refine key (a' := .ok true) h1 (Effect.wrap Answer.ok (b := true) (c' := c') ?_) h2
      intro n hm hc
      obtain ⟨m', e1, e2⟩ := h3 n hm hc
      refine ⟨m', ?_, e2⟩
      unfold updateLMCounts
      rw [sig_static hm, if_neg (by exact hno)]
      exact orElse_some (f := fun _ => true) e1
  | logProbs syms =>
    obtain ⟨r, c', ord', h, h1, h2, h3, h4⟩ := getNegLogProbsFrom_effect syms (g := m.sig) hi.laws hi.wf hi.orders hi.wf.start_lt
    have h5 : Effect (step encode (.logProbs syms)) m.sig (.costs r) c' := by
      refine Effect.wrap Answer.costs (b := r) (f := getNegLogProbs syms) ?_
      intro n hm hc
      obtain ⟨m', e1, e2⟩ := h3 n hm hc
      refine ⟨m', ?_, e2⟩
      unfold getNegLogProbs
      rw [sig_core hm]; exact e1
    cases hst : m.static with
    | true =>
      obtain ⟨k1, k2⟩ := h2 hst
      exact key (ord' := ord) (l := []) (by rw [k1]; exact .nil) h5 (Nat.zero_le _)
    | false =>
      obtain ⟨l, k1, k2⟩ := (h4 hst).amount
      exact key k1 h5 k2

theorem run_amount {m m' : Model A} {encode : Int → Str} {tr : List (Op × Answer A)} (hr : Run encode m tr m') :
    ∀ {ord : Nat → Nat}, Inv A Ok m ord V u →
    ∃ (ord' : Nat → Nat) (l : List (Nat × Int)), Observes A Ok V u m.core ord l m'.core ord' ∧ l.length ≤ observations (tr.map Prod.fst) := by
  induction hr with
  | nil => intro ord _; exact ⟨ord, [], .nil, Nat.zero_le _⟩
  | cons hv hs _ ih =>
    intro ord hi
    obtain ⟨ord1, l1, h1, h2, h3⟩ := step_amount hi encode hv hs
    obtain ⟨ord2, l2, h4, h5⟩ := ih h3
    refine ⟨ord2, l1 ++ l2, h1.append h4, ?_⟩
    rw [List.length_append, List.map_cons]
    simp only [observations, List.map_cons, List.sum_cons] at h5 ⊢
    omega

end

theorem Observed.total_add {c c' : Core XR} {ord ord' : Nat → Nat} {V u s : Nat} {y : Int}
    (wf : WF Arith.xr OkR c.fst ord c.maxOrder V u) (h : Observed Arith.xr OkR c c' ord ord' V u s y)
    (hy0 : 0 ≤ y) (hyV : y ≤ V) {T : ℝ} (hT : Within T V c.fst) : Within (T + 1) V c'.fst := by
  intro x hx
  by_cases hlt : x < c.fst.states.length
  · by_cases hex : Excluded Arith.xr c.fst y s x
    · rw [h.total wf hy0 hyV hlt hex]; linarith [hT x hlt]
    · rw [total_congr (h.outside x hlt hex)]; linarith [hT x hlt]
  · have := (h.fresh x (by omega) hx).1
    rw [(h.wf.unseen_iff x).1 this]
    linarith [within_nonneg wf hT]

theorem Observes.within_add {c c' : Core Arith.xr.C} {ord ord' : Nat → Nat} {V u : Nat} {l : List (Nat × Int)}
    (h : Observes Arith.xr OkR V u c ord l c' ord') : ∀ {T : ℝ}, WF Arith.xr OkR c.fst ord c.maxOrder V u → Within T V c.fst →
    Within (T + l.length) V c'.fst := by
  induction h with
  | nil => intro T _ hT; simpa using hT
  | cons h1 h2 h3 hobs _ ih =>
    intro T wf hT
    have := ih hobs.wf (hobs.total_add wf h2 h3 hT)
    intro s hs
    have := this s hs
    simp only [List.length_cons, Nat.cast_add, Nat.cast_one]
    linarith

theorem Within.mono {T T' : ℝ} {V : Nat} {f : Fst XR} (h : Within T V f) (hT : T ≤ T') : Within T' V f := fun s hs => (h s hs).trans hT

end Mozolm.Ppm
