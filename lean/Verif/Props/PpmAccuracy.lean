import Verif.Ppm.NearRun
import Verif.Ppm.Amount
import Verif.Props.PpmNumeric

/-!
# C91: the PPM model with rounding

`Rounding φ ε δ` (`Rounding.lean`): every operation on costs is within `ε`, every operation on plain numbers within the factor `1 ± δ`, or
raises a flag (only if `φ`).  `AnswerNear`, `scoreError` and `observations` are in `Ppm/NearSpec.lean`; the answers of the model without rounding
are those of the documented formula (C22, C23).
-/

namespace Mozolm.Ppm
open XR Real
open scoped BigOperators

variable {φ : Prop} {ε δ : ℝ}

/-- What the two models are read from: a vocabulary with a character; or automata with the same states and arcs, where every count and total in the
one is that in the other within a relative error of `ε` per observation (`FstTwin`, `CountTwin`), and perhaps a vocabulary. -/
inductive Given (F : Rounding φ ε δ) (hε : 0 ≤ ε) {b : ℝ} (hb : 0 < b) (hb1 : b * exp (2 * ε) < 1) :
    Source F.arith.C → Source Arith.xr.C → Option (List (List Str)) → Prop
  | vocabulary {ls : List (List Str)} : (∃ c ∈ ls.flatten, c ∉ epsilonTable.map Prod.snd) → Given F hε hb hb1 .none .none (some ls)
  | file {g : Fst F.arith.C} {f : Fst Arith.xr.C} {t : SymbolTable} {ord : Nat → Nat} {mo : Int} {V u : Nat} {vocab : Option (List (List Str))} :
      WF Arith.xr OkR f ord mo V u → Totals f V → Dense t V → FstTwin (twin F hε hb hb1) g f → vocab ≠ some [] →
      Given F hε hb hb1 (.fstFile (some (g, t))) (.fstFile (some (f, t))) vocab
  | text {g : Fst F.arith.C} {f : Fst Arith.xr.C} {t : SymbolTable} {ord : Nat → Nat} {mo : Int} {V u : Nat} {vocab : Option (List (List Str))} :
      WF Arith.xr OkR f ord mo V u → Totals f V → Dense t V → FstTwin (twin F hε hb hb1) g f → vocab ≠ some [] →
      Given F hε hb hb1 (.text (some (g, t))) (.text (some (f, t))) vocab

section
variable {F : Rounding φ ε δ} {hε : 0 ≤ ε} {a b : ℝ} {hb : 0 < b} {hb1 : b * exp (2 * ε) < 1}

theorem Dense.zero_mem {t : SymbolTable} {V : Nat} (h : Dense t V) : ∃ e ∈ t, e.1 = 0 := by
  have : (0 : Int) ∈ t.map Prod.fst := by rw [h.labels]; exact List.mem_map.2 ⟨0, by simp, rfl⟩
  obtain ⟨e, he, h0⟩ := List.mem_map.1 this
  exact ⟨e, he, h0⟩

theorem Given.twin {srcF : Source F.arith.C} {src : Source Arith.xr.C} {vocab : Option (List (List Str))} (h : Given F hε hb hb1 srcF src vocab) :
    SourceTwin (Ppm.twin F hε hb hb1) srcF src := by
  cases h with
  | vocabulary _ => exact .none
  | file _ _ ht hf _ => exact .fstFile hf ht.zero_mem
  | text _ _ ht hf _ => exact .text hf ht.zero_mem

theorem beta_lt_one (hε : 0 ≤ ε) (hb : 0 < b) (hb1 : b * exp (2 * ε) < 1) : b < 1 := by
  have : (1 : ℝ) ≤ exp (2 * ε) := Real.one_le_exp (by linarith)
  nlinarith

/-- what is known of the model without rounding -/
theorem Given.plain {srcF : Source F.arith.C} {src : Source Arith.xr.C} {vocab : Option (List (List Str))} (h : Given F hε hb hb1 srcF src vocab)
    {o : Options XR} (hp : (initParameters Arith.xr o).beta = .fin b) :
    ∃ (m : Model Arith.xr) (ord : Nat → Nat) (u : Nat), read Arith.xr o src (vocab.map some) = pure m ∧ Inv Arith.xr OkR m ord m.chars u ∧
      Totals m.core.fst m.chars ∧ m.alpha = (initParameters Arith.xr o).alpha := by
  have L : CountLaws Arith.xr OkR (initParameters Arith.xr o).beta := by rw [hp]; exact laws hb (beta_lt_one hε hb hb1)
  have key : ∀ {f : Fst Arith.xr.C} {t : SymbolTable} {ord : Nat → Nat} {mo : Int} {V u : Nat} {vocab : Option (List (List Str))}
      (src : Source Arith.xr.C), src = .fstFile (some (f, t)) ∨ src = .text (some (f, t)) →
      WF Arith.xr OkR f ord mo V u → Totals f V → Dense t V → vocab ≠ some [] →
      ∃ (m : Model Arith.xr) (ord : Nat → Nat) (u : Nat), read Arith.xr o src (vocab.map some) = pure m ∧ Inv Arith.xr OkR m ord m.chars u ∧
        Totals m.core.fst m.chars ∧ m.alpha = (initParameters Arith.xr o).alpha := by
    intro f t ord mo V u vocab src hsrc wf ht hd hv
    obtain ⟨m, V', k1, k2, k3, _, _, k4, k5, _⟩ := read_fst_ok (A := Arith.xr) (Ok := OkR) L wf hd hsrc vocab hv
    have hV : m.chars = V' := k3.dense.chars
    exact ⟨m, ord, u, k1, by rw [hV]; exact k2, by rw [hV]; exact k4.totals wf k2.wf ht, k5⟩
  cases h with
  | vocabulary hls =>
    obtain ⟨m, ord, V, k1, k2, k3, _, _, k4, k5, _⟩ := read_vocab_ok (A := Arith.xr) (Ok := OkR) L hls
    have hV : m.chars = V := k3.dense.chars
    exact ⟨m, ord, 1, k1, by rw [hV]; exact k2, by rw [hV, k4]; exact fresh_totals V, k5⟩
  | file wf ht hd _ hv => exact key _ (.inl rfl) wf ht hd hv
  | text wf ht hd _ hv => exact key _ (.inr rfl) wf ht hd hv

/-- what is known of the model with rounding -/
theorem Given.rounded {srcF : Source F.arith.C} {src : Source Arith.xr.C} {vocab : Option (List (List Str))} (h : Given F hε hb hb1 srcF src vocab)
    {o : Options XR} (hp : (initParameters F.arith o).beta = .fin b) :
    ∃ (m : Model F.arith) (ord : Nat → Nat) (u : Nat), read F.arith o srcF (vocab.map some) = pure m ∧ Inv F.arith (OkF ε) m ord m.chars u ∧
      m.alpha = (initParameters F.arith o).alpha := by
  have L : CountLaws F.arith (OkF ε) (initParameters F.arith o).beta := by rw [hp]; exact lawsF F hε hb hb1
  have key : ∀ {f : Fst F.arith.C} {t : SymbolTable} {ord : Nat → Nat} {mo : Int} {V u : Nat} {vocab : Option (List (List Str))}
      (src : Source F.arith.C), src = .fstFile (some (f, t)) ∨ src = .text (some (f, t)) →
      WF F.arith (OkF ε) f ord mo V u → Dense t V → vocab ≠ some [] →
      ∃ (m : Model F.arith) (ord : Nat → Nat) (u : Nat), read F.arith o src (vocab.map some) = pure m ∧ Inv F.arith (OkF ε) m ord m.chars u ∧
        m.alpha = (initParameters F.arith o).alpha := by
    intro f t ord mo V u vocab src hsrc wf hd hv
    obtain ⟨m, V', k1, k2, k3, _, _, k4, k5, _⟩ := read_fst_ok (A := F.arith) (Ok := OkF ε) L wf hd hsrc vocab hv
    have hV : m.chars = V' := k3.dense.chars
    exact ⟨m, ord, u, k1, by rw [hV]; exact k2, k5⟩
  cases h with
  | vocabulary hls =>
    obtain ⟨m, ord, V, k1, k2, k3, _, _, k4, k5, _⟩ := read_vocab_ok (A := F.arith) (Ok := OkF ε) L hls
    have hV : m.chars = V := k3.dense.chars
    exact ⟨m, ord, 1, k1, by rw [hV]; exact k2, k5⟩
  | file wf _ hd ht hv => exact key _ (.inl rfl) (ht.wf (fun _ _ (h : CountTwin φ ε _ _) => h.1) (fun _ h => (laws hb (beta_lt_one hε hb hb1)).finite _ h) wf) hd hv
  | text wf _ hd ht hv => exact key _ (.inr rfl) (ht.wf (fun _ _ (h : CountTwin φ ε _ _) => h.1) (fun _ h => (laws hb (beta_lt_one hε hb hb1)).finite _ h) wf) hd hv

/-- **C91** The same calls on a model with rounding and on the model without: states, results and symbols are the same; costs differ by at most
`scoreError ε δ T K V n`, where `V` is the number of characters, `n + 1` the maximum order, `T` bounds the observations after any context and
`K` says how far `beta` is below one; probabilities differ by at most the factor `exp` of that and of one operation, normalizations by at most
`exp ((T + V + 1) ε)` and one operation. -/
theorem C91_accuracy (F : Rounding φ ε δ) (hε : 0 ≤ ε) (hδ0 : 0 ≤ δ) (hδ1 : δ < 1) (ha : 0 < a) (hb : 0 < b) (hb1 : b * exp (2 * ε) < 1)
    {o : Options XR} (haF : (initParameters F.arith o).alpha = .fin a) (hbF : (initParameters F.arith o).beta = .fin b)
    (haR : (initParameters Arith.xr o).alpha = .fin a) (hbR : (initParameters Arith.xr o).beta = .fin b)
    {srcF : Source F.arith.C} {src : Source Arith.xr.C} {vocab : Option (List (List Str))} (hsrc : Given F hε hb hb1 srcF src vocab) :
    ∃ (mF : Model F.arith) (m : Model Arith.xr), read F.arith o srcF (vocab.map some) = pure mF ∧ read Arith.xr o src (vocab.map some) = pure m ∧
      mF.symbols = m.symbols ∧
      ∀ (encode : Int → Str) (tr : List (Op × Answer F.arith)) (mF' : Model F.arith), Run encode mF tr mF' →
      ∃ (tr' : List (Op × Answer Arith.xr)) (m' : Model Arith.xr), Run encode m tr' m' ∧ tr'.map Prod.fst = tr.map Prod.fst ∧
        ∀ T K : ℝ, (∀ s < m.core.fst.states.length, total m.core.fst m.chars s + observations (tr.map Prod.fst) ≤ T) →
          0 ≤ K → b * exp ((T + 1) * ε) * (K + 1) ≤ K →
          Pointwise (fun x y => AnswerNear F (scoreError ε δ T K m.chars (m.core.maxOrder - 1).toNat)
            (scoreError ε δ T K m.chars (m.core.maxOrder - 1).toNat + slack δ) ((T + m.chars + 1) * ε + slack δ) x.2 y.2) tr tr' := by
  obtain ⟨mF, ordF, uF, rF, iF, aF⟩ := hsrc.rounded hbF
  obtain ⟨m, ord, u, r, i, ht, aR⟩ := hsrc.plain hbR
  have htw := read_twin (R := Ppm.twin F hε hb hb1) (o := o) (o' := o) rfl rfl rfl hbF hbR hsrc.twin (vocab.map some)
  rw [rF, r] at htw
  have htw' : ModelTwin (Ppm.twin F hε hb hb1) mF m := by
    cases htw with
    | ok h => exact h
  have hch : mF.chars = m.chars := by unfold Model.chars; rw [htw'.symbols]
  refine ⟨mF, m, rF, r, htw'.symbols.symm, fun encode tr mF' hr => ?_⟩
  have hlt := i.wf.ord_lt i.wf.u_lt
  rw [i.wf.ord_u] at hlt
  have htan : Tandem F hε hb hb1 a m.chars (m.core.maxOrder - 1).toNat mF m := ⟨htw', ⟨ordF, uF, by rw [← hch]; exact iF⟩, ⟨ord, u, i⟩, ht,
    aF.trans haF, aR.trans haR, by omega⟩
  obtain ⟨tr', m', k1, hops, _, k3⟩ := run_near hδ0 hδ1 ha hr htan
  refine ⟨tr', m', k1, hops, fun T K hT hK0 hK => ?_⟩
  obtain ⟨ord', l, e1, e2⟩ := run_amount k1 i
  rw [hops] at e2
  have hW : Within T m.chars m'.core.fst := by
    have h0 : Within (T - observations (tr.map Prod.fst)) m.chars m.core.fst := fun s hs => by linarith [hT s hs]
    refine (e1.within_add i.wf h0).mono ?_
    have : (l.length : ℝ) ≤ observations (tr.map Prod.fst) := by exact_mod_cast e2
    linarith
  exact (k3 T hW).2 K hK0 hK

open Classical in
/-- **C91** Parameters configured strictly between zero and one (by more than the rounding of the number one) are used as they are, with rounding
and without. -/
theorem C91_parameters (F : Rounding φ ε δ) (hδ0 : 0 ≤ δ) {o : Options XR} (hao : o.alpha = .fin a) (hbo : o.beta = .fin b) (ha : 0 < a) (ha1 : a < 1 - δ)
    (hb : 0 < b) (hb1 : b < 1 - δ) :
    (initParameters F.arith o).alpha = .fin a ∧ (initParameters F.arith o).beta = .fin b ∧
    (initParameters Arith.xr o).alpha = .fin a ∧ (initParameters Arith.xr o).beta = .fin b := by
  have k0 : ∀ r : ℝ, 0 < r → F.arith.dle (.fin r) (F.arith.ofInt 0) = false := by
    intro r hr
    have hn := F.ofInt_near 0
    show decide (XR.le (.fin r) (F.ofInt 0)) = false
    rw [decide_eq_false_iff_not]
    intro h
    match hz : F.ofInt 0, hn, h with
    | .fin z, hn, h =>
      have h1 : |z - ((0 : Int) : ℝ)| ≤ δ * |((0 : Int) : ℝ)| := hn
      have h2 : r ≤ z := h
      simp only [Int.cast_zero, sub_zero, abs_zero, mul_zero, abs_nonpos_iff] at h1
      linarith
    | .nan, _, h => exact h
  have k1 : ∀ r : ℝ, r < 1 - δ → F.arith.dle (F.arith.ofInt 1) (.fin r) = false := by
    intro r hr
    have hn := F.ofInt_near 1
    show decide (XR.le (F.ofInt 1) (.fin r)) = false
    rw [decide_eq_false_iff_not]
    intro h
    match hz : F.ofInt 1, hn, h with
    | .fin z, hn, h =>
      have h1 : |z - ((1 : Int) : ℝ)| ≤ δ * |((1 : Int) : ℝ)| := hn
      have h2 : z ≤ r := h
      simp only [Int.cast_one, abs_one, mul_one] at h1
      rw [abs_le] at h1
      linarith [h1.1]
    | .nan, _, h => exact h
  have j0 : ∀ r : ℝ, 0 < r → Arith.xr.dle (.fin r) (Arith.xr.ofInt 0) = false := by
    intro r hr
    show decide (r ≤ ((0 : Int) : ℝ)) = false
    rw [decide_eq_false_iff_not, Int.cast_zero]; linarith
  have j1 : ∀ r : ℝ, r < 1 - δ → Arith.xr.dle (Arith.xr.ofInt 1) (.fin r) = false := by
    intro r hr
    show decide (((1 : Int) : ℝ) ≤ r) = false
    rw [decide_eq_false_iff_not, Int.cast_one]; linarith
  refine ⟨?_, ?_, ?_, ?_⟩
  · show (if F.arith.dle o.alpha (F.arith.ofInt 0) || F.arith.dle (F.arith.ofInt 1) o.alpha then _ else o.alpha) = _
    rw [hao, k0 a ha, k1 a ha1]; rfl
  · show (if F.arith.dle o.beta (F.arith.ofInt 0) || F.arith.dle (F.arith.ofInt 1) o.beta then _ else o.beta) = _
    rw [hbo, k0 b hb, k1 b hb1]; rfl
  · show (if Arith.xr.dle o.alpha (Arith.xr.ofInt 0) || Arith.xr.dle (Arith.xr.ofInt 1) o.alpha then _ else o.alpha) = _
    rw [hao, j0 a ha, j1 a ha1]; rfl
  · show (if Arith.xr.dle o.beta (Arith.xr.ofInt 0) || Arith.xr.dle (Arith.xr.ofInt 1) o.beta then _ else o.beta) = _
    rw [hbo, j0 b hb, j1 b hb1]; rfl

theorem countTwin_self {r : ℝ} (hε : 0 ≤ ε) (hr : 1 ≤ r) : CountTwin φ ε (costOf r) (costOf r) := by
  have hp : 0 < r := by linarith
  have hl : 0 ≤ Real.log r := Real.log_nonneg hr
  refine ⟨.inr ⟨_, costOf_pos hp, by linarith⟩, r, hr, rfl, .inr (.inr ⟨hp, _, costOf_pos hp, ?_⟩)⟩
  have : 0 ≤ r * ε := by positivity
  simpa using this

theorem total_ge_one {f : Fst XR} {ord : Nat → Nat} {mo : Int} {V u s : Nat} (wf : WF Arith.xr OkR f ord mo V u) (h : 0 < total f V s) : 1 ≤ total f V s := by
  by_contra hc
  have : total f V s ≤ 0 := by
    refine Finset.sum_nonpos fun y hy => ?_
    by_contra hp
    rw [cnt_eq] at hp
    cases hw : count Arith.xr f s y with
    | none => rw [hw] at hp; simp [num] at hp
    | some w =>
      have h1 := (wf.count_ok hw).value.1
      have h2 : cnt f s y ≤ total f V s := Finset.single_le_sum (f := fun y => cnt f s y) (fun y _ => wf.cnt_nonneg s y) hy
      rw [cnt_eq, hw] at h2
      simp only [num] at h2
      linarith
  linarith

/-- **C91** A file of counts is its own counterpart. -/
theorem C91_file {f : Fst XR} {ord : Nat → Nat} {mo : Int} {V u : Nat} (wf : WF Arith.xr OkR f ord mo V u) (ht : Totals f V) :
    FstTwin (twin F hε hb hb1) f f := by
  refine ⟨rfl, pointwise_of rfl fun s st st' h1 h2 => ?_⟩
  rw [h1, Option.some.injEq] at h2
  subst h2
  have ok := wf.states s st h1
  have hok : ∀ c : XR, OkR c → CountTwin φ ε c c := by
    rintro c ⟨r, hr, rfl⟩; exact countTwin_self hε hr
  refine ⟨?_, pointwise_of rfl fun i x x' h1' h2' => ?_⟩
  · by_cases hu : s = u
    · exact .inl (hok _ (ok.unigram hu).1)
    · rcases (ok.node hu).1 with h | h
      · have : st.final = .pinf := by simpa using h
        exact .inr ⟨this, this⟩
      · exact .inl (hok _ h)
  · rw [h1', Option.some.injEq] at h2'
    subst h2'
    have hx : x ∈ st.arcs := List.mem_of_getElem? h1'
    refine ⟨rfl, rfl, fun h0 => hok _ (ok.arcs x hx h0).1, fun h0 => ?_⟩
    have hu : s ≠ u := fun hu => (ok.unigram hu).2.2.1 x hx h0
    obtain ⟨_, w, bk, rest, e, _⟩ := ok.node hu
    have hxe : x = ⟨0, w, bk⟩ := by
      rw [e] at hx
      rcases List.mem_cons.1 hx with h | h
      · exact h
      · have hn := ok.nodup
        rw [e, List.map_cons, List.nodup_cons] at hn
        exact absurd (List.mem_map.2 ⟨x, h, h0⟩) hn.1
    have hback : backoff f s = some bk := by unfold backoff; rw [h1]; simp [e]
    have hst : storedTotal f s = some w := by unfold storedTotal; rw [h1]; simp [e]
    obtain ⟨t1, t2⟩ := ht s bk hback
    rw [hst] at t1 t2
    rw [hxe]
    rcases (wf.total_nonneg s).eq_or_lt with h | h
    · have := t1 h.symm
      rw [Option.some.injEq] at this
      show CountTwin φ ε w w
      rw [this]; exact countTwin_self hε le_rfl
    · have := t2 h
      rw [Option.some.injEq] at this
      show CountTwin φ ε w w
      rw [this]; exact countTwin_self hε (total_ge_one wf h)

theorem fresh_within (V : Nat) : Within ((V : ℝ) + 1) V (freshFst Arith.xr V) := by
  intro s hs
  have h1 : ∀ y ∈ Finset.range (V + 1), cnt (freshFst Arith.xr V) s y ≤ 1 := by
    intro y _
    rw [cnt_eq]
    match s, hs with
    | 0, _ => rw [fresh_unseen V]; simp [num]
    | 1, _ =>
      have : count Arith.xr (freshFst Arith.xr V) 1 y = stateCount Arith.xr ⟨Arith.xr.one, loops Arith.xr 1 0 V⟩ y := rfl
      rw [this]
      unfold stateCount
      have hv : value (Arith.xr.one) = 1 := by
        show value (.fin 0) = 1
        rw [← costOf_one, value_costOf (by norm_num)]
      by_cases h0 : (y : Int) = 0
      · rw [if_pos h0]
        simp only [num]
        rw [if_neg (by simp)]
        exact hv.le
      · rw [if_neg h0]
        cases hf : (loops Arith.xr 1 0 V).find? (fun a => a.label == (y : Int)) with
        | none => simp [num]
        | some x =>
          have hx := List.mem_of_find?_eq_some hf
          unfold loops at hx
          obtain ⟨i, _, rfl⟩ := List.mem_map.mp hx
          exact hv.le
    | s + 2, h => exact absurd h (by simp [freshFst])
  have := Finset.sum_le_card_nsmul _ _ _ h1
  simpa [total] using this

end
end Mozolm.Ppm
