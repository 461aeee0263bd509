import Verif.Props.PpmDemo

/-!
# C113: counts stop growing

Counts are kept as costs in floating-point numbers, and adding one to a large count is lost to rounding.
-/

namespace Mozolm.Ppm
variable {A : Arith}

/-- the cost reached from `c` by adding one `n` times -/
def grown (A : Arith) (c : A.C) : Nat → A.C
  | 0 => c
  | n + 1 => A.nls (grown A c n) A.one

/-- a cost that counting from one reaches -/
def Reached (A : Arith) (c : A.C) : Prop := ∃ n, c = grown A A.one n

/-- what counting from one reaches are counts: finite, and above `beta` -/
structure Counting (A : Arith) (beta : A.D) : Prop where
  finite : ∀ n, A.isInf (grown A A.one n) = false
  above : ∀ n, A.ge (grown A A.one n) (A.cost beta) = false
  zero : A.isInf A.inf = true

/-- one more does not count any more -/
def Stalls (A : Arith) (N : Nat) : Prop := grown A A.one (N + 1) = grown A A.one N

theorem Counting.laws {beta : A.D} (h : Counting A beta) : CountLaws A (Reached A) beta where
  one := ⟨0, rfl⟩
  succ := by rintro c ⟨n, rfl⟩; exact ⟨n + 1, rfl⟩
  finite := by rintro c ⟨n, rfl⟩; exact h.finite n
  above := by rintro c ⟨n, rfl⟩; exact h.above n
  zero := h.zero

theorem grown_full {N : Nat} (h : Stalls A N) (k : Nat) : grown A A.one (N + k) = grown A A.one N := by
  induction k with
  | zero => rfl
  | succ k ih =>
    show A.nls (grown A A.one (N + k)) A.one = _
    rw [ih]
    exact h

theorem bumps_grown (k : Nat) : ∀ j, bumps A k (some (grown A A.one j)) = some (grown A A.one (j + k)) := by
  induction k with
  | zero => intro j; rfl
  | succ k ih =>
    intro j
    show bumps A k (some (grown A A.one (j + 1))) = _
    rw [ih, Nat.add_right_comm]
    rfl

theorem count_reached {Ok : A.C → Prop} {f : Fst A.C} {ord : Nat → Nat} {mo : Int} {V u : Nat} (wf : WF A Ok f ord mo V u)
    {s : Nat} {y : Int} {c : A.C} (h : count A f s y = some c) : Ok c := by
  unfold count at h
  cases hst : f.states[s]? with
  | none => rw [hst] at h; cases h
  | some st =>
    rw [hst] at h
    have ok := wf.states s st hst
    change stateCount A st y = some c at h
    unfold stateCount at h
    by_cases hy : y = 0
    · rw [if_pos hy] at h
      by_cases hf : A.isInf st.final = true
      · rw [if_pos hf] at h; cases h
      · rw [if_neg hf] at h
        rw [← Option.some.inj h]
        by_cases hu : s = u
        · exact (ok.unigram hu).1
        · exact (ok.node hu).1.resolve_left hf
    · rw [if_neg hy] at h
      obtain ⟨a, h1, h2⟩ := Option.map_eq_some_iff.1 h
      have hl : a.label = y := by simpa using List.find?_some h1
      rw [← h2]
      exact (ok.arcs a (List.mem_of_find?_eq_some h1) (by rw [hl]; exact hy)).1

section
variable {o : Options A.D} {m0 m m' : Model A} {encode : Int → Str} {tr : List (Op × Answer A)}

/-- **C113** After any history every count of a model is one that adding one to one, again and again, reaches; if that stands still after
`N` steps, one of the first `N + 1`. -/
theorem C113_counts (hc : Counting A (initParameters A o).beta) (hi : Initial A (Reached A) o m0) (hr : Run encode m0 tr m)
    {s : Nat} {y : Int} {c : A.C} (h : count A m.core.fst s y = some c) :
    (∃ n, c = grown A A.one n) ∧ ∀ N, Stalls A N → ∃ n, n ≤ N ∧ c = grown A A.one n := by
  obtain ⟨ord0, V, u, h0⟩ := hi.inv hc.laws
  obtain ⟨ord, _, hinv, _⟩ := run_inv hr h0
  obtain ⟨n, hn⟩ := count_reached hinv.wf h
  refine ⟨⟨n, hn⟩, fun N hN => ?_⟩
  by_cases hle : n ≤ N
  · exact ⟨n, hle, hn⟩
  · refine ⟨N, le_refl _, ?_⟩
    rw [hn, show n = N + (n - N) by omega, grown_full hN]

/-- **C113** A symbol taught more than `N` times after a context has the count reached after `N` steps there, whatever it had before. -/
theorem C113_saturates (hc : Counting A (initParameters A o).beta) (hi : Initial A (Reached A) o m0) (hr : Run encode m0 tr m)
    {N : Nat} (hN : Stalls A N) (hdyn : m.static = false) {s : Nat} (hs : s < m.core.fst.states.length) {sym n : Int} (hn : (N : Int) < n)
    {y : Int} (hy : y = if sym > 0 then m.symbols.findLabel (encode sym) else sym) (hy0 : 0 ≤ y)
    {b : Bool} (hup : updateLMCounts encode s [sym] n m = .ok (b, m')) :
    count A m'.core.fst s y = some (grown A A.one N) := by
  rw [(C27_update_exclusion hc.laws hi hr hdyn hs (by omega) hy hy0 hup).2.2.2.2.1]
  cases h : count A m.core.fst s y with
  | none =>
    obtain ⟨k, hk⟩ : ∃ k, n.toNat = k + 1 := ⟨n.toNat - 1, by omega⟩
    rw [hk]
    show bumps A k (some (grown A A.one 0)) = _
    rw [bumps_grown, Nat.zero_add, show k = N + (k - N) by omega, grown_full hN]
  | some c =>
    obtain ⟨j, rfl⟩ := (C113_counts hc hi hr h).1
    rw [bumps_grown, show j + n.toNat = N + (j + n.toNat - N) by omega, grown_full hN]

/-- **C113** From then on teaching it there changes no count at all. -/
theorem C113_no_more (hc : Counting A (initParameters A o).beta) (hi : Initial A (Reached A) o m0) (hr : Run encode m0 tr m)
    {N : Nat} (hN : Stalls A N) (hdyn : m.static = false) {s : Nat} (hs : s < m.core.fst.states.length) {sym n : Int} (hn : 0 < n)
    {y : Int} (hy : y = if sym > 0 then m.symbols.findLabel (encode sym) else sym) (hy0 : 0 ≤ y)
    (hfull : count A m.core.fst s y = some (grown A A.one N))
    {b : Bool} (hup : updateLMCounts encode s [sym] n m = .ok (b, m')) (x : Nat) (z : Int) :
    count A m'.core.fst x z = count A m.core.fst x z := by
  obtain ⟨_, h1, h2, _, h4, h5⟩ := C27_update_exclusion hc.laws hi hr hdyn hs hn hy hy0 hup
  by_cases hx : x < m.core.fst.states.length
  · by_cases hz : z = y
    · subst hz
      by_cases he : Excluded A m.core.fst z s x
      · cases he with
        | here => rw [h4, hfull, bumps_grown, grown_full hN]
        | lower k1 => rw [hfull] at k1; cases k1
      · exact h2 x hx he
    · exact h1 x z hx hz
  · rw [h5 x z (by omega)]
    unfold count
    rw [List.getElem?_eq_none (by omega)]
    rfl
end

/-! ## Totals -/

section Totals
variable {Ok : A.C → Prop}

/-- every total kept after a context is one that adding one to one reaches -/
def TotalsReached (A : Arith) (f : Fst A.C) : Prop := ∀ (s : Nat) (w : A.C), storedTotal f s = some w → Reached A w

theorem Observed.totalsReached {c c' : Core A.C} {ord ord' : Nat → Nat} {V u s : Nat} {y : Int}
    (h : Observed A Ok c c' ord ord' V u s y) (ht : TotalsReached A c.fst) : TotalsReached A c'.fst := by
  intro x w hw
  by_cases hx : x < c.fst.states.length
  · by_cases he : Excluded A c.fst y s x
    · by_cases hu : Unseen A c.fst x
      · rw [h.total_unseen x he hu] at hw; exact ht x w hw
      · rw [h.total_seen x he hu] at hw
        obtain ⟨v, h1, rfl⟩ := Option.map_eq_some_iff.1 hw
        obtain ⟨n, rfl⟩ := ht x v h1
        exact ⟨n + 1, rfl⟩
    · unfold storedTotal at hw
      rw [h.outside x hx he] at hw
      exact ht x w hw
  · by_cases hx2 : x < c'.fst.states.length
    · rw [(h.fresh x (by omega) hx2).2] at hw
      exact ⟨0, (Option.some.inj hw).symm⟩
    · unfold storedTotal at hw
      rw [List.getElem?_eq_none (by omega)] at hw
      cases hw

theorem Observes.totalsReached {c c' : Core A.C} {ord ord' : Nat → Nat} {V u : Nat} {l : List (Nat × Int)}
    (h : Observes A Ok V u c ord l c' ord') (ht : TotalsReached A c.fst) : TotalsReached A c'.fst := by
  induction h with
  | nil => exact ht
  | cons _ _ _ h1 _ ih => exact ih (h1.totalsReached ht)

theorem Observes.storedTotal_repeated {V u : Nat} {s : Nat} {y : Int} : ∀ (k : Nat) {c c' : Core A.C} {ord ord' : Nat → Nat} {j : Nat},
    Observes A Ok V u c ord (List.replicate k (s, y)) c' ord' → (count A c.fst s y).isSome = true →
    storedTotal c.fst s = some (grown A A.one j) → storedTotal c'.fst s = some (grown A A.one (j + k)) := by
  intro k
  induction k with
  | zero => intro c c' ord ord' j h _ ht; cases h; exact ht
  | succ k ih =>
    intro c c' ord ord' j h hc ht
    cases h with
    | cons _ _ _ h1 h2 =>
      have hseen : ¬ Unseen A c.fst s := fun hu => by rw [hu y] at hc; cases hc
      have := ih h2 (by rw [h1.count_self s .here]; rfl) (j := j + 1)
        (by rw [h1.total_seen s .here hseen, ht]; rfl)
      rw [this, show j + 1 + k = j + (k + 1) by omega]

theorem storedTotal_of_backoff {C : Type} {f : Fst C} {s b : Nat} (h : backoff f s = some b) : ∃ w, storedTotal f s = some w := by
  unfold backoff at h
  unfold storedTotal
  cases hst : f.states[s]? with
  | none => rw [hst] at h; cases h
  | some st =>
    rw [hst] at h
    simp only [Option.bind_some] at h ⊢
    cases ha : st.arcs with
    | nil => rw [ha] at h; cases h
    | cons a r =>
      rw [ha] at h
      by_cases hl : a.label = 0
      · exact ⟨a.weight, by simp [hl]⟩
      · simp [hl] at h

variable {o : Options A.D} {m0 m m' : Model A} {encode : Int → Str} {tr : List (Op × Answer A)}

/-- the totals of a model read from a vocabulary -/
theorem vocabulary_totals (hc : Counting A (initParameters A o).beta) {ls : List (List Str)}
    (hv : ∃ c ∈ ls.flatten, c ∉ epsilonTable.map Prod.snd) (h : read A o .none (some (some ls)) = pure m0) : TotalsReached A m0.core.fst := by
  obtain ⟨m1, _, V, h1, _, _, _, _, h4, _⟩ := read_vocab_ok (A := A) (Ok := Reached A) hc.laws hv
  have e : m0 = m1 := Res.pure_inj (h.symm.trans h1)
  subst e
  rw [h4]
  intro s w hw
  match s with
  | 0 => exact ⟨0, (Option.some.inj hw).symm⟩
  | 1 =>
    exfalso
    cases V with
    | zero => cases hw
    | succ V =>
      simp [storedTotal, freshFst, loops, List.range_succ_eq_map] at hw
  | s + 2 => cases hw

/-- **C113** The totals kept after contexts stand still as well: after more than `N` lessons of a symbol after a context, its total is the
same cost as the count of that symbol, however often other symbols were taught there. -/
theorem C113_totals (hc : Counting A (initParameters A o).beta) (hi : Initial A (Reached A) o m0) (ht : TotalsReached A m0.core.fst)
    (hr : Run encode m0 tr m) {N : Nat} (hN : Stalls A N) (hdyn : m.static = false) {s b : Nat} (hs : backoff m.core.fst s = some b)
    {sym n : Int} (hn : (N : Int) < n) {y : Int} (hy : y = if sym > 0 then m.symbols.findLabel (encode sym) else sym) (hy0 : 0 ≤ y)
    {r : Bool} (hup : updateLMCounts encode s [sym] n m = .ok (r, m')) :
    storedTotal m'.core.fst s = some (grown A A.one N) ∧ count A m'.core.fst s y = some (grown A A.one N) := by
  obtain ⟨ord0, V, u, h0⟩ := hi.inv hc.laws
  obtain ⟨ord, h, hinv, _, hobs0, _⟩ := run_inv hr h0
  have hslt : s < m.core.fst.states.length := by
    by_contra hge
    unfold backoff at hs
    rw [List.getElem?_eq_none (by omega)] at hs
    cases hs
  refine ⟨?_, C113_saturates hc hi hr hN hdyn hslt hn hy hy0 hup⟩
  obtain ⟨w, hw⟩ := storedTotal_of_backoff hs
  obtain ⟨j, rfl⟩ := hobs0.totalsReached ht s w hw
  obtain ⟨t, c', ord', hobs, _, _, hact⟩ := updateSymbol_action (g := m.sig) hinv.laws hinv.wf (hinv.orders hdyn)
    hinv.labels encode (show 0 < n by omega) sym hslt
  have hidx : symIndex encode m.sig.symbols sym = y := hy.symm
  rw [hidx, if_neg (by omega)] at hobs
  obtain ⟨m1, e1, e2, e3, e4⟩ := hact m rfl hinv.cache
  have hfull : updateLMCounts encode s [sym] n m = .ok (true, m1) := by
    unfold updateLMCounts
    rw [hdyn, if_neg (by simp; omega)]
    refine orElse_some (a := ()) (f := fun _ => true) ?_
    show (updateSymbol encode n (s : Int) sym >>= fun t => updateSymbols encode n t []) m = _
    rw [PM.bind_some e1]; rfl
  rw [hfull] at hup
  injection hup with hup
  injection hup with hb hm
  subst hb; subst hm; subst e3
  obtain ⟨k, hk⟩ : ∃ k, n.toNat = k + 1 := ⟨n.toNat - 1, by omega⟩
  rw [hk, List.replicate_succ] at hobs
  generalize m1.core = c2 at hobs ⊢
  cases hobs with
  | cons a1 a2 a3 hone hrest =>
    have hself : (count A ‹Core A.C›.fst s y).isSome = true := by rw [hone.count_self s .here]; rfl
    by_cases hu : Unseen A m.core.fst s
    · rw [hrest.storedTotal_repeated k hself ((hone.total_unseen s .here hu).trans hw), show j + k = N + (j + k - N) by omega, grown_full hN]
    · rw [hrest.storedTotal_repeated k hself (j := j + 1) (by rw [hone.total_seen s .here hu]; show (storedTotal m.core.fst s).map _ = _; rw [hw]; rfl),
        show j + 1 + k = N + (j + 1 + k - N) by omega, grown_full hN]
end Totals

/-! ## Costs on a grid -/

/-- the nearest point of a grid -/
noncomputable def nearest (g : ℝ) : XR → XR
  | .fin x => .fin (g * round (x / g))
  | c => c

/-- exact arithmetic, but sums of counts are stored with the precision `g` -/
@[reducible] noncomputable def gridArith (g : ℝ) : Arith :=
  { Arith.xr with nls := fun a b => nearest g (XR.negLogSum a b) }

/-- the steps of counting on the grid -/
noncomputable def gridStep (g : ℝ) : Nat → ℤ
  | 0 => 0
  | n + 1 => round (-Real.log (Real.exp (-(g * gridStep g n)) + 1) / g)

theorem grown_grid (g : ℝ) (n : Nat) : grown (gridArith g) (.fin 0) n = .fin (g * gridStep g n) := by
  induction n with
  | zero => simp [grown, gridStep]
  | succ n ih =>
    show nearest g (XR.negLogSum (grown (gridArith g) (.fin 0) n) (.fin 0)) = _
    rw [ih]
    simp [XR.negLogSum, nearest, gridStep]

theorem gridStep_le {g : ℝ} (hg : 0 < g) (n : Nat) : gridStep g (n + 1) ≤ gridStep g n := by
  rw [gridStep, round_eq, ← Int.lt_add_one_iff, Int.floor_lt]
  push_cast
  have h1 : Real.exp (-(g * gridStep g n)) < Real.exp (-(g * gridStep g n)) + 1 := by linarith
  have h2 := Real.log_lt_log (Real.exp_pos _) h1
  rw [Real.log_exp] at h2
  have h3 : -Real.log (Real.exp (-(g * gridStep g n)) + 1) / g < gridStep g n := by
    rw [div_lt_iff₀ hg]; linarith
  linarith

theorem gridStep_nonpos {g : ℝ} (hg : 0 < g) (n : Nat) : gridStep g n ≤ 0 := by
  induction n with
  | zero => exact le_refl _
  | succ n ih => exact (gridStep_le hg n).trans ih

/-- the count below which the grid is fine enough -/
theorem gridStep_bound {g : ℝ} (hg : 0 < g) (n : Nat) : min 0 ⌊Real.log (Real.exp (g / 2) - 1) / g⌋ ≤ gridStep g n := by
  have ht : 0 < Real.exp (g / 2) - 1 := by
    have := Real.add_one_lt_exp (x := g / 2) (by linarith)
    linarith
  have hp := Real.exp_pos (g / 2)
  set L := Real.log (Real.exp (g / 2) - 1) with hL
  induction n with
  | zero => exact min_le_left _ _
  | succ n ih =>
    generalize hk : gridStep g n = k at ih
    rw [gridStep, hk, round_eq]
    have hE := Real.exp_pos (-(g * (k : ℝ)))
    by_cases hc : L ≤ g * k
    · refine (min_le_right _ _).trans (Int.floor_le_floor ?_)
      have h1 : Real.exp (-(g * (k : ℝ))) ≤ 1 / (Real.exp (g / 2) - 1) := by
        rw [one_div, ← Real.exp_log (inv_pos.2 ht), Real.log_inv]
        exact Real.exp_le_exp.2 (by linarith)
      have h2 : Real.exp (-(g * (k : ℝ))) + 1 ≤ Real.exp (g / 2) / (Real.exp (g / 2) - 1) := by
        have : Real.exp (g / 2) / (Real.exp (g / 2) - 1) = 1 / (Real.exp (g / 2) - 1) + 1 := by
          field_simp
          ring
        linarith
      have h3 := Real.log_le_log (by linarith) h2
      rw [Real.log_div hp.ne' ht.ne', Real.log_exp] at h3
      have h4 : (L - g / 2) / g ≤ -Real.log (Real.exp (-(g * (k : ℝ))) + 1) / g := by
        apply div_le_div_of_nonneg_right _ hg.le
        linarith
      have h5 : (L - g / 2) / g = L / g - 1 / 2 := by field_simp
      linarith
    · refine ih.trans (Int.le_floor.2 ?_)
      rw [not_le] at hc
      have h1 : Real.exp (g * (k : ℝ)) < Real.exp (g / 2) - 1 := by
        rw [← Real.exp_log ht]; exact Real.exp_lt_exp.2 hc
      have h2 : Real.exp (-(g * (k : ℝ))) + 1 = Real.exp (-(g * (k : ℝ))) * (1 + Real.exp (g * (k : ℝ))) := by
        rw [mul_add, mul_one, ← Real.exp_add]
        simp
      have h3 : Real.log (Real.exp (-(g * (k : ℝ))) + 1) ≤ -(g * k) + g / 2 := by
        rw [h2, Real.log_mul hE.ne' (by positivity), Real.log_exp]
        have := Real.log_le_log (x := 1 + Real.exp (g * (k : ℝ))) (y := Real.exp (g / 2)) (by positivity) (by linarith)
        rw [Real.log_exp] at this
        linarith
      have h4 : (g * k - g / 2) / g ≤ -Real.log (Real.exp (-(g * (k : ℝ))) + 1) / g := by
        apply div_le_div_of_nonneg_right _ hg.le
        linarith
      have h5 : (g * k - g / 2) / g = k - 1 / 2 := by field_simp
      linarith

/-- counting on a grid stands still -/
theorem grid_full {g : ℝ} (hg : 0 < g) : ∃ N, Stalls (gridArith g) N := by
  by_contra hno
  have hlt : ∀ N, gridStep g (N + 1) < gridStep g N := fun N => by
    refine lt_of_le_of_ne (gridStep_le hg N) fun e => hno ⟨N, ?_⟩
    show grown (gridArith g) (.fin 0) (N + 1) = grown (gridArith g) (.fin 0) N
    rw [grown_grid, grown_grid, e]
  have hle : ∀ N : Nat, gridStep g N ≤ -(N : ℤ) := fun N => by
    induction N with
    | zero => exact le_refl _
    | succ N ih => have := hlt N; push_cast; omega
  have h1 := gridStep_bound hg ((-(min 0 ⌊Real.log (Real.exp (g / 2) - 1) / g⌋)).toNat + 1)
  have h2 := hle ((-(min 0 ⌊Real.log (Real.exp (g / 2) - 1) / g⌋)).toNat + 1)
  push_cast at h2
  omega

open Classical in
/-- counts on a grid are counts -/
theorem grid_counting {g : ℝ} (hg : 0 < g) {o : Options XR} (hb : o.beta ≠ .nan) :
    Counting (gridArith g) (initParameters (gridArith g) o).beta := by
  have hpar : (initParameters (gridArith g) o).beta = (initParameters Arith.xr { o with alpha := .fin 0 }).beta := rfl
  have hbeta : (initParameters (gridArith g) o).beta = .fin (effective o.beta (3/4)) := by
    rw [hpar]; exact (parameters { o with alpha := .fin 0 } (by simp) hb).2
  obtain ⟨r1, r2⟩ := effective_range o.beta (d := 3/4) (by norm_num) (by norm_num)
  refine ⟨fun n => ?_, fun n => ?_, by simp⟩
  · show decide (grown (gridArith g) (.fin 0) n = .pinf) = false
    rw [grown_grid]; simp
  · show decide (XR.le ((gridArith g).cost _) (grown (gridArith g) (.fin 0) n)) = false
    rw [hbeta, grown_grid]
    show decide (XR.le (XR.negLog (.fin _)) _) = false
    have h1 : (gridStep g n : ℝ) ≤ 0 := by exact_mod_cast gridStep_nonpos hg n
    have h2 : g * gridStep g n ≤ 0 := mul_nonpos_of_nonneg_of_nonpos hg.le h1
    have h3 := Real.log_neg r1 r2
    rw [XR.negLog_fin r1.le]
    rw [XR.costOf, if_neg r1.ne', decide_eq_false_iff_not]
    show ¬ (-Real.log _ ≤ _)
    linarith

/-- **C113** With costs stored with the precision `g`, no count is ever above `e^g / (e^(g/2) - 1)`, about `2 / g`, whatever was taught. -/
theorem C113_grid {g : ℝ} (hg : 0 < g) {o : Options XR} (hb : o.beta ≠ .nan) {m0 m : Model (gridArith g)}
    (hi : Initial (gridArith g) (Reached (gridArith g)) o m0) {encode : Int → Str} {tr : List (Op × Answer (gridArith g))}
    (hr : Run encode m0 tr m) {s : Nat} {y : Int} {c : XR} (h : count (gridArith g) m.core.fst s y = some c) :
    ∃ x : ℝ, c = .fin x ∧ 1 ≤ Real.exp (-x) ∧ Real.exp (-x) ≤ Real.exp g / (Real.exp (g / 2) - 1) := by
  obtain ⟨n, hn⟩ := (C113_counts (grid_counting hg hb) hi hr h).1
  refine ⟨g * gridStep g n, hn.trans (grown_grid g n), ?_, ?_⟩
  · have h1 : (gridStep g n : ℝ) ≤ 0 := by exact_mod_cast gridStep_nonpos hg n
    rw [← Real.exp_zero]
    exact Real.exp_le_exp.2 (by nlinarith)
  · have ht : 0 < Real.exp (g / 2) - 1 := by
      have := Real.add_one_lt_exp (x := g / 2) (by linarith)
      linarith
    have hsq : Real.exp g = Real.exp (g / 2) * Real.exp (g / 2) := by rw [← Real.exp_add]; congr 1; ring
    rcases min_le_iff.1 (gridStep_bound hg n) with h1 | h1
    · have h2 : (0 : ℝ) ≤ gridStep g n := by exact_mod_cast h1
      have h3 : Real.exp (-(g * gridStep g n)) ≤ 1 := by
        rw [← Real.exp_zero]
        exact Real.exp_le_exp.2 (by nlinarith)
      refine h3.trans ?_
      rw [le_div_iff₀ ht, hsq]
      nlinarith
    · have h2 := Int.lt_floor_add_one (Real.log (Real.exp (g / 2) - 1) / g)
      have h3 : ((⌊Real.log (Real.exp (g / 2) - 1) / g⌋ : ℤ) : ℝ) ≤ gridStep g n := by exact_mod_cast h1
      have h4 : Real.log (Real.exp (g / 2) - 1) / g < gridStep g n + 1 := by linarith
      rw [div_lt_iff₀ hg] at h4
      rw [← Real.exp_log ht, ← Real.exp_sub]
      exact Real.exp_le_exp.2 (by linarith)

/-- **C113** With exact costs counts never stand still. -/
theorem C113_exact (N : Nat) : ¬ Stalls Arith.xr N := by
  have key : ∀ n : Nat, grown Arith.xr (.fin 0) n = XR.costOf ((n : ℝ) + 1) := by
    intro n
    induction n with
    | zero => simp [grown, XR.costOf]
    | succ n ih =>
      show Arith.xr.nls (grown Arith.xr (.fin 0) n) Arith.xr.one = _
      rw [ih]
      refine (nls_one (by positivity)).trans ?_
      push_cast
      rfl
  intro h
  have h' : grown Arith.xr (.fin 0) (N + 1) = grown Arith.xr (.fin 0) N := h
  rw [key, key] at h'
  push_cast at h'
  have hp : (0 : ℝ) < (N : ℝ) + 1 := by positivity
  unfold XR.costOf at h'
  rw [if_neg (by positivity), if_neg (by positivity)] at h'
  have h2 := XR.fin.inj h'
  have h3 := Real.log_lt_log hp (show (N : ℝ) + 1 < N + 1 + 1 by linarith)
  linarith

namespace SaturationDemo
open Demo (enc vocab vocab_ok)

theorem fresh {g : ℝ} (hg : 0 < g) : ∃ m, Initial (gridArith g) (Reached (gridArith g)) Demo.opts m ∧
    m.symbols = epsilonTable ++ [(1, [97]), (2, [98])] ∧ m.static = false ∧ 0 < m.core.fst.states.length ∧
    read (gridArith g) Demo.opts .none (some (some vocab)) = pure m := by
  obtain ⟨m, _, V, h1, _, h3, _, h5, h4, _⟩ := read_vocab_ok (A := gridArith g) (Ok := Reached (gridArith g))
    (grid_counting hg Demo.beta_ok).laws vocab_ok
  have hsym : m.symbols = epsilonTable ++ [(1, [97]), (2, [98])] := by
    clear h4
    have h1 := h1
    unfold read at h1
    obtain ⟨r, e1, h1⟩ := Res.bind_eq.mp h1
    obtain ⟨r2, e2, h1⟩ := Res.bind_eq.mp h1
    obtain ⟨c, e3, h1⟩ := Res.bind_eq.mp h1
    have hr : r = (makeEmpty (gridArith g), epsilonTable) := (Res.pure_inj e1).symm
    subst hr
    have hr2 : r2.2 = epsilonTable ++ [(1, [97]), (2, [98])] := by
      have := Res.pure_inj (e2.symm.trans (by rfl : readVocab (gridArith g) .none (some (some vocab))
        (makeEmpty (gridArith g), epsilonTable) = pure _))
      rw [this]; rfl
    have hm := Res.pure_inj h1
    rw [← hm]
    rfl
  exact ⟨m, .vocabulary vocab_ok h1, hsym, h5, by rw [h4]; simp [freshFst], h1⟩

/-- `a` is taught until its count after the beginning of a string stands still; teaching it again changes no count. -/
example {g : ℝ} (hg : 0 < g) : ∃ (N : Nat) (m0 m1 m2 : Model (gridArith g)), Initial (gridArith g) (Reached (gridArith g)) Demo.opts m0 ∧
    updateLMCounts enc (0 : Nat) [97] (N + 1 : Int) m0 = .ok (true, m1) ∧
    count (gridArith g) m1.core.fst 0 1 = some (grown (gridArith g) (.fin 0) N) ∧
    updateLMCounts enc (0 : Nat) [97] 1000000 m1 = .ok (true, m2) ∧
    ∀ x z, count (gridArith g) m2.core.fst x z = count (gridArith g) m1.core.fst x z := by
  obtain ⟨N, hN⟩ := grid_full hg
  obtain ⟨m0, hi, hsym, hst, hlen, _⟩ := fresh hg
  have hc := grid_counting hg Demo.beta_ok
  obtain ⟨m1, e1, l1, _⟩ := C26_update_succeeds hc.laws hi (.nil (encode := enc)) hlen [97] (N + 1 : Int)
  have hy : (1 : Int) = if (97 : Int) > 0 then m0.symbols.findLabel (enc 97) else 97 := by rw [hsym]; rfl
  have hcount := C113_saturates hc hi (.nil (encode := enc)) hN hst hlen (by omega) hy (by omega) e1
  have hr : Run enc m0 [(.update 0 [97] (N + 1 : Int), .ok true)] m1 :=
    .cons hlen (by simp only [step, wrap]; rw [e1]) .nil
  obtain ⟨m2, e2, _⟩ := C26_update_succeeds hc.laws hi hr (s := 0) (by omega) [97] 1000000
  refine ⟨N, m0, m1, m2, hi, e1, hcount, e2, fun x z => ?_⟩
  obtain ⟨ord0, V, u, h0⟩ := hi.inv hc.laws
  obtain ⟨_, _, _, hp, _⟩ := run_inv hr h0
  refine C113_no_more hc hi hr hN (by rw [hp.static]; exact hst) (by omega) (by omega) (y := 1) ?_ (by omega) hcount e2 x z
  rw [hp.symbols]; exact hy

/-- After the beginning of a string, `a` and then `b` are taught until their counts stand still: each is as high as the total of both. -/
example {g : ℝ} (hg : 0 < g) : ∃ (N : Nat) (m0 m1 m2 : Model (gridArith g)), Initial (gridArith g) (Reached (gridArith g)) Demo.opts m0 ∧
    updateLMCounts enc (0 : Nat) [97] (N + 1 : Int) m0 = .ok (true, m1) ∧
    updateLMCounts enc (0 : Nat) [98] (N + 1 : Int) m1 = .ok (true, m2) ∧
    count (gridArith g) m2.core.fst 0 1 = storedTotal m2.core.fst 0 ∧ count (gridArith g) m2.core.fst 0 2 = storedTotal m2.core.fst 0 ∧
    (storedTotal m2.core.fst 0).isSome = true := by
  obtain ⟨N, hN⟩ := grid_full hg
  have hc := grid_counting hg Demo.beta_ok
  obtain ⟨m0, _, V, h1, _, h3, _, h5, h4, _⟩ := read_vocab_ok (A := gridArith g) (Ok := Reached (gridArith g)) hc.laws vocab_ok
  obtain ⟨m0', hi', hsym, _, _, hm⟩ := fresh hg
  have e : m0 = m0' := Res.pure_inj (h1.symm.trans hm)
  subst e
  have hb : backoff m0.core.fst 0 = some 1 := by rw [h4]; rfl
  have hlen : 0 < m0.core.fst.states.length := by rw [h4]; simp [freshFst]
  obtain ⟨m1, e1, l1, hb1, _⟩ := C26_update_succeeds hc.laws hi' (.nil (encode := enc)) hlen [97] (N + 1 : Int)
  have hcount := C113_saturates hc hi' (.nil (encode := enc)) hN h5 hlen (y := 1) (by omega) (by rw [hsym]; rfl) (by omega) e1
  have hr : Run enc m0 [(.update 0 [97] (N + 1 : Int), .ok true)] m1 :=
    .cons hlen (by simp only [step, wrap]; rw [e1]) .nil
  obtain ⟨ord0, W, u, h0⟩ := hi'.inv hc.laws
  obtain ⟨_, _, _, hp, _⟩ := run_inv hr h0
  obtain ⟨m2, e2, _⟩ := C26_update_succeeds hc.laws hi' hr (s := 0) (by omega) [98] (N + 1 : Int)
  have hd : m1.static = false := by rw [hp.static]; exact h5
  have hy : (2 : Int) = if (98 : Int) > 0 then m1.symbols.findLabel (enc 98) else 98 := by rw [hp.symbols, hsym]; rfl
  obtain ⟨t1, t2⟩ := C113_totals hc hi' (vocabulary_totals hc vocab_ok h1) hr hN hd ((hb1 0 hlen).trans hb) (by omega) hy (by omega) e2
  have hother := (C27_update_exclusion hc.laws hi' hr hd (by omega) (by omega) hy (by omega) e2).2.1 0 1 (by omega) (by omega)
  exact ⟨N, m0, m1, m2, hi', e1, e2, by rw [hother, hcount, t1], by rw [t2, t1], by rw [t1]; rfl⟩

end SaturationDemo
end Mozolm.Ppm
