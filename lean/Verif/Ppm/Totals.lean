import Verif.Ppm.Numeric

/-! # The totals on the backoff arcs -/

namespace Mozolm.Ppm
open XR
open scoped BigOperators

/-- The number of characters a model knows; its symbol table also has the empty symbol. -/
def Model.chars {A : Arith} (m : Model A) : Nat := m.symbols.length - 1

theorem Dense.chars {t : SymbolTable} {V : Nat} (h : Dense t V) : t.length - 1 = V := by
  have := congrArg List.length h.labels
  simp only [List.length_map, List.length_range] at this
  omega

/-- the symbols in the order of their labels -/
theorem Dense.symbols_tail {t : SymbolTable} {V : Nat} (h : Dense t V) :
    ((List.range V).map fun (i : Nat) => t.findSymbol ((i : Int) + 1)) = t.tail.map Prod.snd := by
  have hlen : t.length = V + 1 := by simpa using congrArg List.length h.labels
  have hlab : ∀ (i : Nat) (e : Int × Str), t[i]? = some e → e.1 = (i : Int) := by
    intro i e he
    have h1 : (t.map Prod.fst)[i]? = some e.1 := by rw [List.getElem?_map, he]; rfl
    have hi : i < V + 1 := by rw [← hlen]; exact lt_of_getElem?_eq_some he
    rw [h.labels, List.getElem?_map, List.getElem?_range hi] at h1
    simpa using h1.symm
  refine List.ext_getElem? fun i => ?_
  by_cases hi : i < V
  · obtain ⟨e, he⟩ := exists_getElem?_of_lt (l := t) (i := i + 1) (by omega)
    rw [List.getElem?_map, List.getElem?_range hi, List.getElem?_map, List.getElem?_tail, he]
    simp only [Option.map_some, Option.some.injEq]
    have hl := hlab _ _ he
    unfold SymbolTable.findSymbol
    cases hf : t.find? (fun e => e.1 == (i : Int) + 1) with
    | none =>
      have := List.find?_eq_none.mp hf e (List.mem_of_getElem? he)
      simp only [beq_iff_eq] at this
      omega
    | some e' =>
      have h1 := List.find?_some hf
      simp only [beq_iff_eq] at h1
      obtain ⟨j, hj⟩ := List.getElem?_of_mem (List.mem_of_find?_eq_some hf)
      have h2 := hlab _ _ hj
      have : j = i + 1 := by omega
      subst this
      rw [he] at hj
      injection hj with hj
      rw [hj]
  · rw [List.getElem?_eq_none (by simpa using hi), List.getElem?_eq_none (by simp; omega)]

theorem count_congr {A : Arith} {f f' : Fst A.C} {s : Nat} (h : f'.states[s]? = f.states[s]?) (y : Int) :
    count A f' s y = count A f s y := by unfold count; rw [h]

theorem total_congr {f f' : Fst XR} {V s : Nat} (h : f'.states[s]? = f.states[s]?) :
    total f' V s = total f V s := by
  rw [total_eq, total_eq]
  exact Finset.sum_congr rfl fun y _ => by rw [count_congr h]

theorem storedTotal_congr {f f' : Fst XR} {s : Nat} (h : f'.states[s]? = f.states[s]?) :
    storedTotal f' s = storedTotal f s := by unfold storedTotal; rw [h]

theorem fresh_backoff {V s b : Nat} (h : backoff (freshFst Arith.xr V) s = some b) : s = 0 := by
  match s with
  | 0 => rfl
  | 1 =>
    exfalso
    unfold backoff freshFst at h
    simp only [List.getElem?_cons_succ, List.getElem?_cons_zero] at h
    cases V with
    | zero => simp [loops] at h
    | succ V =>
      rw [loops_succ] at h
      simp only at h
      rw [if_neg (by omega)] at h; cases h
  | s + 2 => simp [backoff, freshFst] at h

theorem fresh_unseen (V : Nat) : Unseen Arith.xr (freshFst Arith.xr V) 0 := by
  intro y
  show stateCount Arith.xr ⟨pinf, [⟨0, .fin 0, 1⟩]⟩ y = none
  unfold stateCount
  by_cases h : y = 0
  · rw [if_pos h]; simp
  · rw [if_neg h]
    have : ((0 : Int) == y) = false := by simp only [beq_eq_false_iff_ne, ne_eq]; omega
    simp [this]

theorem fresh_totals (V : Nat) : Totals (freshFst Arith.xr V) V := by
  intro s b hb
  have := fresh_backoff hb
  subst this
  have h0 : total (freshFst Arith.xr V) V 0 = 0 := by
    rw [total_eq]
    exact Finset.sum_eq_zero fun y _ => by rw [fresh_unseen V]; rfl
  refine ⟨fun _ => ?_, fun h => by rw [h0] at h; exact absurd h (lt_irrefl _)⟩
  rw [costOf_one]; rfl

theorem Grown.totals {f f' : Fst XR} {ord ord' : Nat → Nat} {mo mo' : Int} {V V' u : Nat}
    (h : Grown Arith.xr f f' V V' u) (wf : WF Arith.xr OkR f ord mo V u) (wf' : WF Arith.xr OkR f' ord' mo' V' u) (ht : Totals f V) : Totals f' V' := by
  intro s b hb
  have hs := wf'.of_backoff hb
  have hst := h.others s hs.2.1
  obtain ⟨st, h1, _⟩ := wf'.exists_state hs.1
  have htot : total f' V' s = total f V s := by
    rw [total_eq, total_eq, wf'.sum_count _ h1, wf.sum_count _ (hst.symm.trans h1)]
  rw [htot, storedTotal_congr hst]
  exact ht s b (by rw [← hb]; exact (backoff_congr hst).symm)

theorem bump_value {w : Option XR} (h : ∀ v, w = some v → OkR v) : value (bump Arith.xr w) = num value w + 1 := by
  cases w with
  | none =>
    show value (.fin 0) = 0 + 1
    rw [← costOf_one, value_costOf (by norm_num)]; norm_num
  | some v =>
    have hv := (h v rfl).value
    show value (Arith.xr.nls v Arith.xr.one) = value v + 1
    conv_lhs => rw [hv.2, nls_one (by linarith [hv.1])]
    exact value_costOf (by linarith [hv.1])

/-- An observation adds one to the total of each context it counts in. -/
theorem Observed.total {c c' : Core XR} {ord ord' : Nat → Nat} {V u s : Nat} {y : Int}
    (wf : WF Arith.xr OkR c.fst ord c.maxOrder V u) (h : Observed Arith.xr OkR c c' ord ord' V u s y)
    (hy0 : 0 ≤ y) (hyV : y ≤ V) {x : Nat} (hx : x < c.fst.states.length) (hex : Excluded Arith.xr c.fst y s x) :
    Ppm.total c'.fst V x = Ppm.total c.fst V x + 1 := by
  obtain ⟨k, rfl⟩ := Int.eq_ofNat_of_zero_le hy0
  have hsplit : ∀ z ∈ Finset.range (V + 1), cnt c'.fst x z = cnt c.fst x z + (if z = k then 1 else 0) := by
    intro z _
    rw [cnt_eq, cnt_eq]
    by_cases hz : z = k
    · subst hz
      rw [if_pos rfl, h.count_self x hex]
      exact bump_value (fun v hv => wf.count_ok hv)
    · rw [if_neg hz, add_zero, h.count_other x z hx (by omega)]
  unfold Ppm.total
  rw [Finset.sum_congr rfl hsplit, Finset.sum_add_distrib, Finset.sum_ite_eq', if_pos]
  rw [Finset.mem_range]; omega

theorem Observed.totals {c c' : Core XR} {ord ord' : Nat → Nat} {V u s : Nat} {y : Int}
    (wf : WF Arith.xr OkR c.fst ord c.maxOrder V u) (h : Observed Arith.xr OkR c c' ord ord' V u s y)
    (_hs : s < c.fst.states.length) (hy0 : 0 ≤ y) (hyV : y ≤ V) (ht : Totals c.fst V) : Totals c'.fst V := by
  intro x b hb
  by_cases hx : x < c.fst.states.length
  · have hb' : backoff c.fst x = some b := by rw [← h.sameBackoff x hx]; exact hb
    by_cases hex : Excluded Arith.xr c.fst y s x
    · have htot := h.total wf hy0 hyV hx hex
      have hnn := wf.total_nonneg x
      refine ⟨fun h0 => by linarith, fun _ => ?_⟩
      rcases hnn.eq_or_lt with h0 | h0
      · rw [h.total_unseen x hex ((wf.unseen_iff x).mpr h0.symm), (ht x b hb').1 h0.symm, htot, ← h0, zero_add]
      · have hseen : ¬ Unseen Arith.xr c.fst x := fun hu => by
          have := (wf.unseen_iff x).mp hu; linarith
        rw [h.total_seen x hex hseen, (ht x b hb').2 h0, htot, Option.map_some, nls_one hnn]
    · have := h.outside x hx hex
      rw [total_congr this, storedTotal_congr this]
      exact ht x b hb'
  · have hlt := (h.wf.of_backoff hb).1
    have hf := h.fresh x (by omega) hlt
    have h0 := (h.wf.unseen_iff x).mp hf.1
    refine ⟨fun _ => ?_, fun hp => by linarith⟩
    rw [hf.2, costOf_one]

theorem Observes.totals {c c' : Core Arith.xr.C} {ord ord' : Nat → Nat} {V u : Nat} {l : List (Nat × Int)}
    (h : Observes Arith.xr OkR V u c ord l c' ord') (wf : WF Arith.xr OkR c.fst ord c.maxOrder V u)
    (ht : Totals c.fst V) : Totals c'.fst V := by
  induction h with
  | nil => exact ht
  | cons h1 h2 h3 hobs _ ih => exact ih hobs.wf (hobs.totals wf h1 h2 h3 ht)

/-! ## Parameters -/

open Classical in
/-- The parameter in use: the configured one if strictly between 0 and 1, else the default. -/
noncomputable def effective (x : XR) (default : ℝ) : ℝ :=
  match x with
  | .fin r => if 0 < r ∧ r < 1 then r else default
  | _ => default

theorem effective_range (x : XR) {d : ℝ} (h0 : 0 < d) (h1 : d < 1) : 0 < effective x d ∧ effective x d < 1 := by
  unfold effective
  cases x with
  | fin r =>
    simp only
    split
    · assumption
    · exact ⟨h0, h1⟩
  | _ => exact ⟨h0, h1⟩

open Classical in
theorem parameters (o : Options XR) (ha : o.alpha ≠ .nan) (hb : o.beta ≠ .nan) :
    (initParameters Arith.xr o).alpha = .fin (effective o.alpha (1/2)) ∧
    (initParameters Arith.xr o).beta = .fin (effective o.beta (3/4)) := by
  have key : ∀ (x : XR) (n d : Int) (q : ℝ), x ≠ .nan → XR.div (.fin (n : ℝ)) (.fin (d : ℝ)) = .fin q →
      (if Arith.xr.dle x (Arith.xr.ofInt 0) || Arith.xr.dle (Arith.xr.ofInt 1) x
        then XR.div (.fin (n : ℝ)) (.fin (d : ℝ)) else x) = .fin (effective x q) := by
    intro x n d q hx hd
    rw [hd]
    cases x with
    | fin r =>
      simp only [XR.le, effective, Bool.or_eq_true, decide_eq_true_eq, Int.cast_zero, Int.cast_one]
      by_cases h : 0 < r ∧ r < 1
      · rw [if_neg (by push Not; exact ⟨h.1, h.2⟩), if_pos h]
      · rw [if_pos (by by_contra hc; push Not at hc; exact h hc), if_neg h]
    | pinf =>
      have : (Arith.xr.dle XR.pinf (Arith.xr.ofInt 0) || Arith.xr.dle (Arith.xr.ofInt 1) XR.pinf) = true := by
        rw [Bool.or_eq_true]; right; exact decide_eq_true trivial
      rw [if_pos this]; rfl
    | ninf =>
      have : (Arith.xr.dle XR.ninf (Arith.xr.ofInt 0) || Arith.xr.dle (Arith.xr.ofInt 1) XR.ninf) = true := by
        rw [Bool.or_eq_true]; left; exact decide_eq_true trivial
      rw [if_pos this]; rfl
    | nan => exact absurd rfl hx
  refine ⟨key o.alpha 1 2 (1/2) ha ?_, key o.beta 3 4 (3/4) hb ?_⟩
  · simp only [XR.div]; norm_num
  · simp only [XR.div]; norm_num

theorem laws_of (o : Options XR) (ha : o.alpha ≠ .nan) (hb : o.beta ≠ .nan) :
    CountLaws Arith.xr OkR (initParameters Arith.xr o).beta := by
  rw [(parameters o ha hb).2]
  have := effective_range o.beta (d := 3/4) (by norm_num) (by norm_num)
  exact laws this.1 this.2

/-- what is known about a model that was read -/
theorem Initial.known {A : Arith} {Ok : A.C → Prop} {o : Options A.D} {m : Model A}
    (L : CountLaws A Ok (initParameters A o).beta) (h : Initial A Ok o m) :
    ∃ ord u, Inv A Ok m ord m.chars u ∧ Dense m.symbols m.chars ∧ m.alpha = (initParameters A o).alpha ∧
      m.beta = (initParameters A o).beta := by
  cases h with
  | vocabulary h1 h2 =>
    obtain ⟨m', ord, V, k1, k2, k3, _, _, _, k4, k5, _⟩ := read_vocab_ok (Ok := Ok) L h1
    have : m = m' := Res.pure_inj (h2.symm.trans k1)
    subst this
    have hV : m.chars = V := k3.dense.chars
    exact ⟨ord, 1, by rw [hV]; exact k2, by rw [hV]; exact k3.dense, k4, k5⟩
  | automaton h1 h2 h3 h4 h5 =>
    obtain ⟨m', V', k1, k2, k3, _, _, _, k4, k5⟩ := read_fst_ok (Ok := Ok) L h1 h2 h3 _ h4
    have : m = m' := Res.pure_inj (h5.symm.trans k1)
    subst this
    have hV : m.chars = V' := k3.dense.chars
    exact ⟨_, _, by rw [hV]; exact k2, by rw [hV]; exact k3.dense, k4, k5⟩

theorem Run.chars {A : Arith} {Ok : A.C → Prop} {encode : Int → Str} {m m' : Model A} {tr : List (Op × Answer A)}
    (h : Run encode m tr m') {ord : Nat → Nat} {V u : Nat} (hi : Inv A Ok m ord V u) : m'.chars = m.chars := by
  obtain ⟨_, _, _, hp, _⟩ := run_inv h hi
  unfold Model.chars; rw [hp.symbols]

end Mozolm.Ppm
