import Verif.Props.RoundingServer

/-! # C88: bigram models with rounding -/

namespace Mozolm
open XR Real Scores

variable {φ : Prop} {ε δ : ℝ}

namespace Bigram

/-- what a bigram model answers, in any arithmetic -/
theorem extract_row {m : Model} (w : WF m) (A : Arith) (enc : Int → Str) (s : Int) : ∃ row : List Int,
    m.counts[stands m.utf8 s]? = some row ∧ row.length = m.utf8.length ∧ row ≠ [] ∧ (∀ c ∈ row, 1 ≤ c) ∧
    m.norm[m.fix s]? = some row.sum ∧
    extractLMScores A enc m s = .ok ⟨m.utf8.map enc, row.map fun c => A.ddiv (A.ofInt c) (A.ofInt row.sum), A.ofInt row.sum⟩ := by
  have hlt := w.fix_lt s
  obtain ⟨row, hr⟩ := exists_getElem?_of_lt (l := m.counts) (i := m.fix s) (by rw [w.rowsLen]; exact hlt)
  have hrm := List.mem_of_getElem? hr
  have hrl := w.rowLen row hrm
  have hn := w.sum _ row hr
  have hne : row ≠ [] := by
    intro h0; rw [h0] at hrl; have := w.pos_len; simp at hrl; omega
  refine ⟨row, by rw [show stands m.utf8 s = m.fix s from (fix_eq m s).symm]; exact hr, hrl, hne, fun c hc => (w.pos row hrm c hc).1, hn, ?_⟩
  unfold extractLMScores
  simp only [hn, hr]
  rw [scoreLoop_eq (us := m.utf8) A enc m row.sum row (i := 0) rfl hrl.symm]
  simp only [ok_bind]
  congr 2
  · rw [List.map_fst_zip]; simp [hrl]
  · rw [List.map_snd_zip (by simp [hrl])]

/-- **C88** A bigram model answers at every state with the shares of the counts of its row, each within the factor
`(1 - δ) ^ -3`; and the cost of each of its characters is that of the share, within `ε - 3 log (1 - δ)`. -/
theorem C88_bigram (F : Rounding φ ε δ) (h1 : δ < 1) {m : Model} (h : Reachable m) (enc : Int → Str) (s : Int) :
    ∃ (sc : LMScores XR) (row : List Int), extractLMScores F.arith enc m s = .ok sc ∧ sc.symbols = m.utf8.map enc ∧
      m.counts[stands m.utf8 s]? = some row ∧ row.length = m.utf8.length ∧ sc.probs.length = m.utf8.length ∧
      ∀ (j : Nat) (u c : Int), m.utf8[j]? = some u → row[j]? = some c →
        (∃ x, sc.probs[j]? = some x ∧ ValueNear φ (3 * slack δ) x ((c : ℝ) / (row.sum : ℝ))) ∧
        ∃ x, symLMScore F.arith m s u = .ok x ∧ CostNear φ (3 * slack δ + ε) x ((c : ℝ) / (row.sum : ℝ)) := by
  have w := h.wf
  obtain ⟨row, hr, hrl, hne, hc1, hn, hx⟩ := extract_row w F.arith enc s
  have hpos := row_sum_pos hne hc1
  have hposR : (0 : ℝ) < (row.sum : ℝ) := by exact_mod_cast hpos
  have hnear : ∀ c ∈ row, ValueNear φ (3 * slack δ) (F.ddiv (F.ofInt c) (F.ofInt row.sum)) ((c : ℝ) / (row.sum : ℝ)) ∧
      (0 : ℝ) ≤ (c : ℝ) / (row.sum : ℝ) := by
    intro c hc
    have := hc1 c hc
    have hcR : (0 : ℝ) ≤ (c : ℝ) := by exact_mod_cast (by omega : 0 ≤ c)
    have hq : (0 : ℝ) ≤ (c : ℝ) / (row.sum : ℝ) := by positivity
    exact ⟨(ValueNear.div F h1 hcR hposR (ValueNear.ofInt F h1 (by omega)) (ValueNear.ofInt F h1 hpos.le)).mono hq
      (le_of_eq (by ring)), hq⟩
  refine ⟨_, row, hx, rfl, hr, hrl, by simp [hrl], fun j u c hu hc => ⟨⟨_, by rw [List.getElem?_map, hc]; rfl, (hnear c (List.mem_of_getElem? hc)).1⟩, ?_⟩⟩
  have hj := lt_of_getElem?_eq_some hu
  have hidx : nextState m (m.fix s : Nat) u = j := ((C20_next_state h _ u).1 j hu).1
  obtain ⟨a1, a2⟩ := hnear c (List.mem_of_getElem? hc)
  refine ⟨F.cost (F.ddiv (F.ofInt c) (F.ofInt row.sum)), ?_, a1.cost F a2⟩
  have hr' : m.counts[m.fix s]? = some row := by rw [show m.fix s = stands m.utf8 s from fix_eq m s]; exact hr
  unfold symLMScore
  simp only [hidx, Int.toNat_natCast, hr', hn, hc]
  rw [if_pos]
  have := w.fix_lt s
  simp only [Model.validState, Bool.and_eq_true, decide_eq_true_eq]; omega

end Bigram

namespace System

variable {F : Rounding φ ε δ} {encode : Int → Str}

/-- **C88** A fixed mixture of `n ≥ 2` bigram models, after any calls: at every state the reply lists the characters of all the
vocabularies in byte order, each with the weighted average of the shares of its counts, within the factor `exp E` where
`E = 2 (-3 log (1 - δ) + (2 n + 2) ε) + K ε - log (1 - δ)` for `K` symbols, unless a flag was raised. -/
theorem C88_bigrams {models : List (Component F.arith)} (hε : 0 ≤ ε) (h1 : δ < 1) (hs : ∀ m ∈ models, Served encode m)
    (hinj : ∀ a b, encode a = encode b → a = b) :
    ∃ bound, ∀ fuel, bound ≤ fuel → ∀ orderN orderV, (env F.arith encode fuel orderN orderV).Fair →
      ∀ (cfg : Hub.HubConfig XR) calls h (ws : List ℝ), cfg.mixture = .interpolation → cfg.weights = ws.map XR.fin →
        2 ≤ ws.length → ws.length = models.length → cfg.bayesianHistoryLength ≤ 0 →
        Hub.Reach (env F.arith encode fuel orderN orderV) models cfg calls h →
        ∀ bs : List Bigram.Model, h.models = bs.map .bigram → ∀ s st, h.valid s = true → h.states[s.toNat]? = some st →
        ∃ (rows : List (List Int)) (res : LMScores XR) (h' : Hub.Hub F.arith (Component F.arith)),
          rows.length = bs.length ∧
          (∀ (k : Nat) (m : Bigram.Model) (row : List Int), bs[k]? = some m → rows[k]? = some row →
            m.counts[Bigram.stands m.utf8 (st.modelState k)]? = some row) ∧
          Hub.extractLMScores (env F.arith encode fuel orderN orderV) h s = .ok (some res, h') ∧
          res.symbols.Pairwise Hub.byteLt ∧ (∀ sym, sym ∈ res.symbols ↔ ∃ m ∈ bs, ∃ u ∈ m.utf8, encode u = sym) ∧
          res.probs.length = res.symbols.length ∧
          ∀ (i : Nat) (sym : Str) (x : XR), res.symbols[i]? = some sym → res.probs[i]? = some x →
            ValueNear φ (2 * (3 * slack δ + ws.length * ε + (2 + ws.length) * ε) + res.symbols.length * ε + slack δ) x
              (Hub.mass (List.zipWith (fun (w : ℝ) (mr : Bigram.Model × List Int) =>
                (exp (-w) / (ws.map fun v => exp (-v)).sum,
                  (mr.1.utf8.map encode).zip (mr.2.map fun c : Int => (c : ℝ) / (mr.2.sum : ℝ)))) ws (bs.zip rows)) sym) := by
  obtain ⟨bound, hb⟩ := served_live hs
  refine ⟨bound, fun fuel hfu orderN orderV hf cfg calls h ws hmix hws h2 hn hj hr bs hbs s st hv hst => ?_⟩
  have ho := Hub.reach_own hf (closedOn F.arith encode fuel) (hb fuel hfu) hr
  have g := Hub.reach_good hf hr
  obtain ⟨hwl, hwt⟩ := Hub.C88_weights hε hf hr hmix hws h2
  have hwf : ∀ b ∈ bs, Bigram.WF b := fun b hbm => ho.works (.bigram b) (by rw [hbs]; exact List.mem_map_of_mem hbm)
  have hml : bs.length = models.length := by
    have : h.models.length = models.length := by rw [← g.const.models.length_eq]; rfl
    rw [← this, hbs, List.length_map]
  -- the rows
  have hrow : ∀ k : Fin bs.length, ∃ row : List Int, _ :=
    fun k => Bigram.extract_row (hwf _ (List.getElem_mem k.2)) F.arith encode (st.modelState k)
  choose f hf1 hf2 hf3 hf4 hf5 hf6 using hrow
  let rows := List.ofFn f
  have hrows : ∀ (k : Nat) (hk : k < bs.length), rows[k]? = some (f ⟨k, hk⟩) := fun k hk => by
    simp [rows, hk]
  let rs : List Hub.Share := List.zipWith (fun (w : ℝ) (mr : Bigram.Model × List Int) =>
    (exp (-w) / (ws.map fun v => exp (-v)).sum,
      (mr.1.utf8.map encode).zip (mr.2.map fun c : Int => (c : ℝ) / (mr.2.sum : ℝ)))) ws (bs.zip rows)
  have hrl : rows.length = bs.length := by simp [rows]
  have hrs : ∀ (k : Nat) (r : Hub.Share), rs[k]? = some r → ∃ (w : ℝ) (hk : k < bs.length), ws[k]? = some w ∧
      r = (exp (-w) / (ws.map fun v => exp (-v)).sum,
        (bs[k].utf8.map encode).zip ((f ⟨k, hk⟩).map fun c : Int => (c : ℝ) / ((f ⟨k, hk⟩).sum : ℝ))) := by
    intro k r hk
    simp only [rs, List.getElem?_zipWith] at hk
    cases hw : ws[k]? with
    | none => rw [hw] at hk; simp at hk
    | some w =>
      have hkl : k < bs.length := by have := lt_of_getElem?_eq_some hw; omega
      have hz : (bs.zip rows)[k]? = some (bs[k], f ⟨k, hkl⟩) := by
        rw [List.getElem?_zip_eq_some]
        exact ⟨List.getElem?_eq_getElem hkl, hrows k hkl⟩
      rw [hw, hz] at hk
      simp only [Option.some.injEq] at hk
      exact ⟨w, hkl, rfl, hk.symm⟩
  have hrsl : rs.length = ws.length := by
    simp only [rs, List.length_zipWith, List.length_zip, hrl]; omega
  have hne : ws ≠ [] := by intro e; simp [e] at h2
  have hS := Hub.exp_total_pos hne
  have hpos : ∀ k : Fin bs.length, (0 : ℝ) < ((f k).sum : ℝ) := fun k => by
    exact_mod_cast Bigram.row_sum_pos (hf3 k) (hf4 k)
  have hshare : ∀ k : Fin bs.length, (((f k).map fun c : Int => (c : ℝ) / ((f k).sum : ℝ))).sum = 1 := fun k => by
    have := sum_map_div ((f k).map fun c : Int => (c : ℝ)) ((f k).sum : ℝ)
    rw [List.map_map, ← Bigram.cast_sum, div_self (hpos k).ne'] at this
    exact this
  have hlen : ∀ (k : Nat) (hk : k < bs.length), (bs[k].utf8.map encode).length =
      ((f ⟨k, hk⟩).map fun c : Int => (c : ℝ) / ((f ⟨k, hk⟩).sum : ℝ)).length := fun k hk => by
    rw [List.length_map, List.length_map, hf2 ⟨k, hk⟩]
  have hent : ∀ r ∈ rs, 0 ≤ r.1 ∧ (∀ e ∈ r.2, 0 ≤ e.2) ∧ (r.2.map Prod.snd).sum = 1 ∧ (r.2.map Prod.fst).Nodup := by
    intro r hrm
    obtain ⟨k, hk⟩ := List.mem_iff_getElem?.1 hrm
    obtain ⟨w, hkl, hw, rfl⟩ := hrs k r hk
    refine ⟨by positivity, fun e he => ?_, ?_, ?_⟩
    · obtain ⟨c, hc, hce⟩ := List.mem_map.1 (List.of_mem_zip he).2
      rw [← hce]
      have := hf4 ⟨k, hkl⟩ c hc
      have hcR : (0 : ℝ) ≤ (c : ℝ) := by exact_mod_cast (by omega : 0 ≤ c)
      exact div_nonneg hcR (hpos ⟨k, hkl⟩).le
    · rw [List.map_snd_zip (le_of_eq (hlen k hkl).symm), hshare]
    · rw [List.map_fst_zip (le_of_eq (hlen k hkl))]
      refine List.Nodup.map (fun a b => hinj a b) ?_
      exact ((hwf _ (List.getElem_mem hkl)).sorted).imp (fun h => by omega)
  have htotal : Hub.total rs = 1 := by
    unfold Hub.total
    have e1 : (rs.map fun r => r.1 * (r.2.map Prod.snd).sum) = rs.map Prod.fst :=
      List.map_congr_left fun r hr => by rw [(hent r hr).2.2.1, mul_one]
    have e2 : rs.map Prod.fst = ws.map fun w => exp (-w) / (ws.map fun v => exp (-v)).sum := by
      refine List.ext_getElem? fun k => ?_
      rw [List.getElem?_map, List.getElem?_map]
      cases hk : rs[k]? with
      | none =>
        have : ws[k]? = none := List.getElem?_eq_none (by rw [← hrsl]; exact List.getElem?_eq_none_iff.1 hk)
        rw [this]; rfl
      | some r =>
        obtain ⟨w, hkl, hw, rfl⟩ := hrs k r hk
        rw [hw]; rfl
    rw [e1, e2]
    have := sum_map_div (ws.map fun w => exp (-w)) (ws.map fun w => exp (-w)).sum
    rw [List.map_map, div_self hS.ne'] at this
    exact this
  have hmw : Hub.getMixtureWeights h s true = .ok h.weights := by
    unfold Hub.getMixtureWeights
    rw [if_pos]
    have hl : h.hlen = Hub.cfgHlen (A := F.arith) cfg := g.const.hlen
    have : Hub.cfgHlen (A := F.arith) cfg = 0 := by unfold Hub.cfgHlen; split <;> omega
    simp [hl, this]
  have hoff : ∀ sym, Hub.offers rs sym ≤ ws.length := by
    intro sym
    rw [← hrsl]
    unfold Hub.offers
    have : ∀ l : List Hub.Share, (∀ r ∈ l, (r.2.map Prod.fst).Nodup) → (l.map fun r => (r.2.map Prod.fst).count sym).sum ≤ l.length := by
      intro l
      induction l with
      | nil => simp
      | cons r l ih =>
        intro hl
        have h1 := (List.nodup_iff_count_le_one.1 (hl r (by simp))) sym
        have h2 := ih fun r hr => hl r (by simp [hr])
        simp only [List.map_cons, List.sum_cons, List.length_cons]; omega
    exact this rs fun r hr => (hent r hr).2.2.2
  have hans : Hub.AnswersNear (3 * slack δ) (env F.arith encode fuel orderN orderV) st 0 h.models rs := by
    refine ⟨by rw [hbs, List.length_map, hrsl]; omega, fun k m r hm hk => ?_⟩
    obtain ⟨w, hkl, hw, rfl⟩ := hrs k r hk
    rw [hbs, List.getElem?_map, List.getElem?_eq_getElem hkl, Option.map_some, Option.some.injEq] at hm
    subst hm
    refine ⟨.bigram bs[k], (f ⟨k, hkl⟩).map (fun c => F.ddiv (F.ofInt c) (F.ofInt (f ⟨k, hkl⟩).sum)),
      F.ofInt (f ⟨k, hkl⟩).sum, ?_, ?_, ?_⟩
    · rw [Nat.zero_add, List.map_fst_zip (le_of_eq (hlen k hkl))]
      show settle none (Bigram.extractLMScores F.arith encode bs[k] (st.modelState k)) _ = _
      rw [show Bigram.extractLMScores F.arith encode bs[k] (st.modelState k) = _ from hf6 ⟨k, hkl⟩]
      rfl
    · rw [List.length_zip, ← hlen k hkl, min_self, List.length_map, List.length_map, hf2 ⟨k, hkl⟩]
    · intro l x e hx he
      rw [List.getElem?_map] at hx
      obtain ⟨c, hc, rfl⟩ := Option.map_eq_some_iff.1 hx
      rw [List.getElem?_zip_eq_some, List.getElem?_map (l := f ⟨k, hkl⟩), hc, Option.map_some, Option.some.injEq] at he
      rw [← he.2]
      have hcm := List.mem_of_getElem? hc
      have hc1 := hf4 ⟨k, hkl⟩ c hcm
      have hcR : (0 : ℝ) ≤ (c : ℝ) := by exact_mod_cast (by omega : 0 ≤ c)
      have hp := Bigram.row_sum_pos (hf3 ⟨k, hkl⟩) (hf4 ⟨k, hkl⟩)
      exact (ValueNear.div F h1 hcR (hpos ⟨k, hkl⟩) (ValueNear.ofInt F h1 (by omega)) (ValueNear.ofInt F h1 hp.le)).mono
        (div_nonneg hcR (hpos ⟨k, hkl⟩).le) (le_of_eq (by ring))
  obtain ⟨res, h', e1, e2, e3, e4, e5⟩ := Hub.C88_average hε h1 hf h hv (by omega) hst (fun r hr => ⟨(hent r hr).1, (hent r hr).2.1⟩)
    hmw (by omega) (eW := ws.length * ε) (fun k w r hw hk => by
      obtain ⟨v, hkl, hv, rfl⟩ := hrs k r hk
      exact hwt k w v hw hv) hans hoff (by rw [htotal]; norm_num)
  refine ⟨rows, res, h', hrl, ?_, e1, e2, ?_, e4, ?_⟩
  · intro k m row hm hk
    have hkl := lt_of_getElem?_eq_some hm
    rw [hrows k hkl, Option.some.injEq] at hk
    rw [List.getElem?_eq_getElem hkl, Option.some.injEq] at hm
    rw [← hk, ← hm]
    exact hf1 ⟨k, hkl⟩
  · intro sym
    rw [e3]
    constructor
    · rintro ⟨r, hr, e, he, hes⟩
      obtain ⟨k, hk⟩ := List.mem_iff_getElem?.1 hr
      obtain ⟨w, hkl, hw, rfl⟩ := hrs k r hk
      obtain ⟨u, hu, hue⟩ := List.mem_map.1 (List.of_mem_zip he).1
      exact ⟨bs[k], List.getElem_mem hkl, u, hu, hue.trans hes⟩
    · rintro ⟨m, hm, u, hu, hus⟩
      obtain ⟨k, hkl, rfl⟩ := List.mem_iff_getElem.1 hm
      obtain ⟨r, hk⟩ := exists_getElem?_of_lt (l := rs) (i := k) (by omega)
      obtain ⟨w, _, hw, hre⟩ := hrs k r hk
      have hmem : sym ∈ r.2.map Prod.fst := by
        rw [hre, List.map_fst_zip (le_of_eq (hlen k hkl))]
        exact List.mem_map.2 ⟨u, hu, hus⟩
      obtain ⟨e, he, hes⟩ := List.mem_map.1 hmem
      exact ⟨r, List.mem_of_getElem? hk, e, he, hes⟩
  · intro i sym x hi hx
    have := e5 i sym x hi hx
    rw [htotal, div_one] at this
    exact this

end System
end Mozolm
