import Verif.Props.Alone
import Verif.Props.PpmNumeric
import Verif.Props.PpmDemo
import Verif.Props.BigramNumeric

/-!
# C74: the adaptive components speak in probabilities
-/

namespace Mozolm.System
open XR
variable {encode : Int → Str} {fuel : Nat}

/-- A bigram model, or a PPM model whose automaton carries the totals of its counts, as read. -/
inductive Adaptive : Component Arith.xr → Prop
  | bigram {v c : Bigram.FileArg} {m : Bigram.Model} : Bigram.read v c = .ok (some m) → Adaptive (.bigram m)
  | ppm {o : Ppm.Options XR} {m : Ppm.Model Arith.xr} : o.alpha ≠ .nan → o.beta ≠ .nan →
      Ppm.Initial Arith.xr Ppm.OkR o m → Ppm.Totals m.core.fst m.chars → Adaptive (.ppm m)

theorem Adaptive.served {m : Component Arith.xr} (h : Adaptive m) : Served encode m := by
  cases h with
  | bigram h => exact .bigram h
  | ppm ha hb hi _ => exact .ppm (Ppm.laws_of _ ha hb) hi

/-- At a state, the component gives every character a probability, and a distribution over its symbols. -/
def Sayable (encode : Int → Str) (fuel : Nat) (m : Component Arith.xr) (s : Int) : Prop :=
  (∀ c, ∃ p : ℝ, 0 ≤ p ∧ (symScore encode fuel m s c).1 = costOf p) ∧
  ∃ (es : List (Str × ℝ)) (nrm : XR), (∀ e ∈ es, 0 < e.2) ∧ (es.map Prod.snd).sum = 1 ∧
    (extract encode fuel m s).1 = some ⟨es.map Prod.fst, es.map fun e => XR.fin e.2, nrm⟩

theorem sayable_bigram {m : Bigram.Model} (h : Bigram.Reachable m) (s : Int) : Sayable encode fuel (.bigram m) s := by
  obtain ⟨sc, ps, row, e1, e2, e3, _, _, _, e4, e5, e6, e7, e8⟩ := Bigram.C16_scores_are_distribution h encode s
  constructor
  · intro c
    by_cases hc : c ∈ m.utf8
    · obtain ⟨j, hj, rfl⟩ := List.mem_iff_getElem.1 hc
      obtain ⟨p, hp⟩ := exists_getElem?_of_lt (l := ps) (i := j) (by rw [e4]; exact hj)
      have hpos := e5 p (List.mem_of_getElem? hp)
      refine ⟨p, hpos.le, ?_⟩
      simp only [symScore, e7 j _ p (List.getElem?_eq_getElem hj) hp, settle, costOf_pos hpos]
    · refine ⟨0, le_refl _, ?_⟩
      simp only [symScore, e8 c hc, settle, costOf_zero]
  · refine ⟨(m.utf8.map encode).zip ps, sc.norm, fun e he => e5 _ (List.of_mem_zip he).2, ?_, ?_⟩
    · rw [List.map_snd_zip (by simp [e4]), e6]
    · have a : ((m.utf8.map encode).zip ps).map Prod.fst = sc.symbols := by
        rw [List.map_fst_zip (by simp [e4]), e2]
      have b : ((m.utf8.map encode).zip ps).map (fun e => XR.fin e.2) = sc.probs := by
        have : ((m.utf8.map encode).zip ps).map (fun e => XR.fin e.2) = (((m.utf8.map encode).zip ps).map Prod.snd).map XR.fin := by
          rw [List.map_map]; rfl
        rw [this, List.map_snd_zip (by simp [e4]), e3]
      simp only [System.extract, e1, settle, a, b]

theorem sayable_ppm {o : Ppm.Options XR} {m0 m : Ppm.Model Arith.xr} (ha : o.alpha ≠ .nan) (hb : o.beta ≠ .nan)
    (hi : Ppm.Initial Arith.xr Ppm.OkR o m0) (ht : Ppm.Totals m0.core.fst m0.chars)
    {tr : List (Ppm.Op × Ppm.Answer Arith.xr)} (hr : Ppm.Run encode m0 tr m) {s : Nat}
    (hs : s < m.core.fst.states.length) : Sayable encode fuel (.ppm m) (s : Int) := by
  constructor
  · intro c
    obtain ⟨ord0, u, h0, _⟩ := hi.known (Ppm.laws_of o ha hb)
    obtain ⟨ord, l, hinv, _⟩ := Ppm.run_inv hr h0
    obtain ⟨d, hd, hsz⟩ := hinv.wf.ideal hinv.laws m.alpha s hs
    obtain ⟨w, hw, -⟩ := Ppm.symLMScore_query (g := m.sig) hinv.laws hinv.wf hinv.labels encode c hs hd
    obtain ⟨m1, e, -⟩ := hw m rfl hinv.cache
    obtain ⟨k1, k2⟩ := Ppm.C23_symbol_score ha hb hi ht hr hs e
    simp only [symScore, e, settle]
    by_cases hy : (if c = 0 then 0 else m.symbols.findLabel (encode c)) < 0
    · exact ⟨0, le_refl _, by rw [k2 hy, costOf_zero]⟩
    · obtain ⟨y, hy⟩ := Int.eq_ofNat_of_zero_le (not_lt.1 hy)
      obtain ⟨p, _, hp, rfl⟩ := k1 y hy
      exact ⟨p, hp.le, (costOf_pos hp).symm⟩
  · obtain ⟨p, N, r, m', e1, e2, e3, _, e4, e5, _⟩ := Ppm.C23_scores ha hb hi ht hr hs
    have hne : 0 < m.symbols.length := by
      by_contra h0
      have : m.symbols.length = 0 := by omega
      rw [this] at e5
      simp at e5
    have hl : r.symbols.length = m.symbols.length := by rw [e2]; simp; omega
    refine ⟨r.symbols.zip ((List.range m.symbols.length).map p), r.norm, ?_, ?_, ?_⟩
    · intro e he
      obtain ⟨y, hy, h⟩ := List.mem_map.1 (List.of_mem_zip he).2
      rw [← h]
      exact (e4 y (List.mem_range.1 hy)).1
    · rw [List.map_snd_zip (by simp [hl]), ← e5, Finset.sum_range]
      rw [← List.sum_ofFn]
      congr 1
      refine List.ext_getElem (by simp) fun i h1 h2 => by simp
    · have a : (r.symbols.zip ((List.range m.symbols.length).map p)).map Prod.fst = r.symbols :=
        List.map_fst_zip (by simp [hl])
      have b : (r.symbols.zip ((List.range m.symbols.length).map p)).map (fun e => XR.fin e.2) = r.probs := by
        have : (r.symbols.zip ((List.range m.symbols.length).map p)).map (fun e => XR.fin e.2) =
            ((r.symbols.zip ((List.range m.symbols.length).map p)).map Prod.snd).map XR.fin := by
          rw [List.map_map]; rfl
        rw [this, List.map_snd_zip (by simp [hl]), e3, List.map_map]
        rfl
      simp only [System.extract, e1, settle, a, b]

/-- Wherever a text leads an adaptive component, it gives probabilities. -/
theorem Adaptive.sayable {m : Component Arith.xr} (h : Adaptive m) (text : List Int) :
    Sayable encode fuel (walk encode fuel m (start m) text).1 (walk encode fuel m (start m) text).2 := by
  cases h with
  | @bigram v c m h =>
    have key : ∀ (text : List Int) (s : Int), (walk encode fuel (.bigram m : Component Arith.xr) s text).1 = .bigram m := by
      intro text
      induction text with
      | nil => intro s; rfl
      | cons c cs ih => intro s; exact ih _
    rw [key]
    exact sayable_bigram ⟨v, c, m, [], h, rfl⟩ _
  | @ppm o m0 ha hb hi ht =>
    have key : ∀ (text : List Int) (m : Ppm.Model Arith.xr) (s : Nat) (tr : List (Ppm.Op × Ppm.Answer Arith.xr)),
        Ppm.Run encode m0 tr m → s < m.core.fst.states.length →
        ∃ (m' : Ppm.Model Arith.xr) (s' : Nat) (tr' : List (Ppm.Op × Ppm.Answer Arith.xr)),
          walk encode fuel (.ppm m) (s : Int) text = (.ppm m', (s' : Int)) ∧ Ppm.Run encode m0 tr' m' ∧
          s' < m'.core.fst.states.length := by
      intro text
      induction text with
      | nil => intro m s tr hr hs; exact ⟨m, s, tr, rfl, hr, hs⟩
      | cons c cs ih =>
        intro m s tr hr hs
        obtain ⟨ord0, u, h0, _⟩ := hi.known (Ppm.laws_of o ha hb)
        obtain ⟨ord, l, hinv, _⟩ := Ppm.run_inv hr h0
        obtain ⟨t, _, htl, hq⟩ := Ppm.nextState_query (g := m.sig) hinv.laws hinv.wf hinv.labels encode c (s := s) hs
        obtain ⟨m1, e1, e2, e3⟩ := hq m rfl hinv.cache
        have hr1 : Ppm.Run encode m0 (tr ++ [(.next s c, .state t)]) m1 :=
          hr.append (.cons (m1 := m1) hs (by simp only [Ppm.step, Ppm.wrap, e1]) .nil)
        obtain ⟨m', s', tr', k1, k2, k3⟩ := ih m1 t _ hr1 (by
          have : m1.core = m.core := e2.core
          rw [this]; exact htl)
        refine ⟨m', s', tr', ?_, k2, k3⟩
        rw [← k1]
        simp only [walk, System.next, e1, settle]
    obtain ⟨ord0, u, h0, _⟩ := hi.known (Ppm.laws_of o ha hb)
    obtain ⟨m', s', tr', k1, k2, k3⟩ := key text m0 m0.core.fst.start [] .nil h0.wf.start_lt
    have k1 : walk encode fuel (.ppm m0) (start (.ppm m0)) text = (.ppm m', (s' : Int)) := k1
    rw [k1]
    exact sayable_ppm ha hb hi ht k2 k3

/-- So it has a voice, whatever the text; its answer is a distribution. -/
theorem Adaptive.speaks {m : Component Arith.xr} (h : Adaptive m) (text : List Int) (w : ℝ) :
    ∃ v : Hub.Voice, v.weight = w ∧ Speaks encode fuel m text v ∧ (v.entries.map Prod.snd).sum = 1 := by
  have hc : ∀ pre c, ∃ p : ℝ, 0 ≤ p ∧ aloneScore encode fuel m pre c = costOf p := fun pre c => (h.sayable pre).1 c
  choose f hf using hc
  obtain ⟨es, nrm, e1, e2, e3⟩ := (h.sayable (encode := encode) (fuel := fuel) text).2
  have hlen : ∀ (cs done : List Int), (Hub.traceCosts f done cs).length = cs.length := by
    intro cs
    induction cs with
    | nil => intro _; rfl
    | cons c cs ih => intro done; simp [Hub.traceCosts, ih]
  refine ⟨⟨w, Hub.traceCosts f [] text, es⟩, rfl, ⟨hlen _ _, ?_, fun e he => (e1 e he).le, nrm, e3⟩, e2⟩
  intro i c p hi hp
  simp only [getElem?_traceCosts, hi, Option.map_some, List.nil_append, Option.some.injEq] at hp
  subst hp
  exact hf _ _

/-- Shares of answers that are distributions add up to one. -/
theorem total_one {j : Nat} {vs : List Hub.Voice} (h1 : ∀ v ∈ vs, (v.entries.map Prod.snd).sum = 1)
    (hpos : 0 < (vs.map (Hub.Voice.earned j)).sum) : Hub.total (Hub.sharesOf j vs) = 1 := by
  unfold Hub.total Hub.sharesOf
  rw [List.map_map]
  have : vs.map ((fun r : Hub.Share => r.1 * (r.2.map Prod.snd).sum) ∘ fun v =>
      (v.earned j / (vs.map (Hub.Voice.earned j)).sum, v.entries)) =
      (vs.map (Hub.Voice.earned j)).map fun x => x / (vs.map (Hub.Voice.earned j)).sum := by
    rw [List.map_map]
    refine List.map_congr_left fun v hv => ?_
    simp only [Function.comp, h1 v hv, mul_one]
  rw [this, Scores.sum_map_div, div_self hpos.ne']

/-- **C74** (adaptive models) For bigram and PPM models the voices always exist, and their answers are
distributions: unless every model gives one of the last characters probability zero, the reply is their
mixture. -/
theorem C74_adaptive {models : List (Component Arith.xr)} (ha : ∀ m ∈ models, Adaptive m) (h2 : 2 ≤ models.length) :
    ∃ bound, ∀ fuel, bound ≤ fuel → ∀ orderN orderV, (env Arith.xr encode fuel orderN orderV).Fair →
      ∀ (cfg : Hub.HubConfig XR) reqs h (ws : List ℝ), cfg.mixture = .interpolation → cfg.weights = ws.map .fin →
        ws.length = models.length → NothingLearnt models reqs →
        Server.Reach (env Arith.xr encode fuel orderN orderV) models cfg reqs h →
        ∀ text, (∀ c ∈ text, 0 ≤ c) → ∀ x, -2 ^ 31 ≤ x → x ≤ 0 →
        1 + (reqs.map Server.Request.symbols).sum + text.length ≤ Hub.cfgMax (A := Arith.xr) cfg →
        ∃ vs : List Hub.Voice, vs.map Hub.Voice.weight = ws ∧
          (∀ (k : Nat) m v, models[k]? = some m → vs[k]? = some v → Speaks encode fuel m text v) ∧
          (0 < (vs.map (Hub.Voice.earned cfg.bayesianHistoryLength.toNat)).sum →
            ∃ res h', Server.getLMScores (env Arith.xr encode fuel orderN orderV) h text x = .ok (.ok res, h') ∧
              res.symbols.Pairwise Hub.byteLt ∧
              (∀ sym, sym ∈ res.symbols ↔ ∃ v ∈ vs, ∃ e ∈ v.entries, e.1 = sym) ∧
              res.probs = res.symbols.map fun sym =>
                XR.fin (Hub.mass (Hub.sharesOf cfg.bayesianHistoryLength.toNat vs) sym)) := by
  obtain ⟨bound, hb⟩ := C74_mixture (encode := encode) (fun m hm => (ha m hm).served)
  refine ⟨bound, fun fuel hfu orderN orderV hf cfg reqs h ws hmix hws hwl hq hr text ht x hl hx hm => ?_⟩
  have hvs : ∀ k : Fin models.length, ∃ v : Hub.Voice, v.weight = ws[k.1]'(by omega) ∧
      Speaks encode fuel models[k.1] text v ∧ (v.entries.map Prod.snd).sum = 1 :=
    fun k => (ha _ (List.getElem_mem k.2)).speaks text _
  choose f hf1 hf2 hf3 using hvs
  refine ⟨List.ofFn f, ?_, ?_, fun hpos => ?_⟩
  · refine List.ext_getElem (by simp [hwl]) fun i h1 h2 => ?_
    simp [hf1]
  · intro k m v hm hv
    rw [List.getElem?_ofFn] at hv
    split at hv
    · next hk =>
      cases hv
      rw [List.getElem?_eq_getElem hk] at hm
      cases hm
      exact hf2 ⟨k, hk⟩
    · cases hv
  · have hsum : ∀ v ∈ List.ofFn f, (v.entries.map Prod.snd).sum = 1 := by
      intro v hv
      obtain ⟨k, rfl⟩ := (List.mem_ofFn' f v).1 hv
      exact hf3 k
    have htot := total_one hsum hpos
    obtain ⟨res, h', e1, e2, e3, e4⟩ := hb fuel hfu orderN orderV hf cfg reqs h hmix hq hr text ht x hl hx hm (List.ofFn f)
      (by simpa using h2) (by simp) (by
        rw [hws]
        refine List.ext_getElem (by simp [hwl]) fun i h1 h2 => ?_
        simp [hf1]) (by
        intro k m v hm hv
        rw [List.getElem?_ofFn] at hv
        split at hv
        · next hk =>
          cases hv
          rw [List.getElem?_eq_getElem hk] at hm
          cases hm
          exact hf2 ⟨k, hk⟩
        · cases hv) _ rfl hpos (by rw [htot]; norm_num)
    refine ⟨res, h', e1, e2, e3, ?_⟩
    rw [e4, htot]
    simp

/-! ## A case meeting the hypotheses -/

set_option maxRecDepth 20000 in
/-- A bigram and a PPM model of "ab". -/
theorem demo_adaptive : ∃ (b : Bigram.Model) (p : Ppm.Model Arith.xr), Adaptive (.bigram b) ∧ Adaptive (.ppm p) ∧
    ∀ fuel, aloneScore demoEncode fuel (.ppm p) [] 97 ≠ .pinf := by
  obtain ⟨p, hp, ht, _, hsym⟩ := Ppm.Demo.fresh
  obtain ⟨b, hb⟩ : ∃ b, Bigram.read .absent .absent = .ok (some b) := ⟨_, rfl⟩
  refine ⟨b, p, .bigram hb, .ppm Ppm.Demo.alpha_ok Ppm.Demo.beta_ok hp ht, fun fuel => ?_⟩
  obtain ⟨ord0, u, h0, _⟩ := hp.known (Ppm.laws_of Ppm.Demo.opts Ppm.Demo.alpha_ok Ppm.Demo.beta_ok)
  obtain ⟨d, hd, hsz⟩ := h0.wf.ideal h0.laws p.alpha p.core.fst.start h0.wf.start_lt
  obtain ⟨w, hw, -⟩ := Ppm.symLMScore_query (g := p.sig) h0.laws h0.wf h0.labels demoEncode 97 h0.wf.start_lt hd
  obtain ⟨m1, e, -⟩ := hw p rfl h0.cache
  obtain ⟨q, _, _, hq⟩ := (Ppm.C23_symbol_score Ppm.Demo.alpha_ok Ppm.Demo.beta_ok hp ht .nil h0.wf.start_lt e).1 1
    (by rw [hsym]; rfl)
  have e : Ppm.symLMScore demoEncode (start (.ppm p)) 97 p = .ok (w, m1) := e
  simp only [aloneScore, walk, symScore, e, settle, hq]
  simp

/-- C74: a server over both, with a Bayesian history of one character; a request before; the reply to "a" is the
mixture. -/
example : ∃ (models : List (Component Arith.xr)) (fuel : Nat) (cfg : Hub.HubConfig XR)
    (h h' : Hub.Hub Arith.xr (Component Arith.xr)) (vs : List Hub.Voice) (res : LMScores XR),
    models.length = 2 ∧ (∀ m ∈ models, Adaptive m) ∧ cfg.bayesianHistoryLength = 1 ∧
    Server.Reach (env Arith.xr demoEncode fuel id id) models cfg [.getLMScores [98] 0] h ∧
    (∀ (k : Nat) m v, models[k]? = some m → vs[k]? = some v → Speaks demoEncode fuel m [97] v) ∧
    0 < (vs.map (Hub.Voice.earned 1)).sum ∧
    Server.getLMScores (env Arith.xr demoEncode fuel id id) h [97] 0 = .ok (.ok res, h') := by
  obtain ⟨b, p, hb, hp, hfin⟩ := demo_adaptive
  have ha : ∀ m ∈ [Component.bigram b, .ppm p], Adaptive m := by
    intro m hm
    simp only [List.mem_cons, List.not_mem_nil, or_false] at hm
    rcases hm with rfl | rfl <;> assumption
  obtain ⟨b1, hb1⟩ := C72_service (encode := demoEncode) (fun m hm => (ha m hm).served) (by simp)
  obtain ⟨b2, hb2⟩ := C74_adaptive (encode := demoEncode) ha (by simp)
  have hf : (env Arith.xr demoEncode (max b1 b2) id id).Fair := ⟨fun _ => .refl _, fun _ => .refl _⟩
  let cfg : Hub.HubConfig XR :=
    { mixture := .interpolation, weights := [.fin 0, .fin 1], bayesianHistoryLength := 1, maxStates := 20 }
  have hcfg : cfg.mixture = .interpolation → cfg.weights.length ≤ [Component.bigram b, .ppm p].length := fun _ => Nat.le_refl 2
  obtain ⟨h0, hr0⟩ : ∃ h0, Hub.initializeModels (env Arith.xr demoEncode (max b1 b2) id id) [.bigram b, .ppm p] cfg = .ok (some h0) :=
    ⟨_, by rw [Hub.initialize_eq hf, if_neg (by decide)]⟩
  obtain ⟨rep, h1, e1, _⟩ := (hb1 _ (by omega) _ _ hf cfg [] h0 hcfg ⟨h0, hr0, rfl⟩).2 [98] 0
  have hr1 : Server.Reach (env Arith.xr demoEncode (max b1 b2) id id) [.bigram b, .ppm p] cfg [.getLMScores [98] 0] h1 :=
    ⟨h0, hr0, by simp only [Server.serveAll, Server.serve, e1, ok_bind]⟩
  obtain ⟨vs, hw, hsp, hres⟩ := hb2 _ (by omega) _ _ hf cfg _ h1 [0, 1] rfl rfl rfl (.inr fun _ _ _ h => by simp at h) hr1 [97]
    (by decide) 0 (by decide) (by decide) (by decide)
  obtain ⟨v1, v2, rfl⟩ : ∃ v1 v2, vs = [v1, v2] := by
    have hl := congrArg List.length hw
    match vs, hl with
    | [v1, v2], _ => exact ⟨v1, v2, rfl⟩
  have hpos : 0 < ([v1, v2].map (Hub.Voice.earned 1)).sum := by
    have s1 := hsp 0 _ v1 rfl rfl
    have s2 := hsp 1 _ v2 rfl rfl
    have n1 : 0 ≤ v1.earned 1 := Hub.Voice.earned_nonneg fun q hq => by
      obtain ⟨i, hi, rfl⟩ := List.mem_iff_getElem.1 hq
      exact (s1.char i _ _ (List.getElem?_eq_getElem (by rw [← s1.length]; exact hi)) (List.getElem?_eq_getElem hi)).1
    obtain ⟨q, hq⟩ : ∃ q, v2.chars = [q] := by
      have := s2.length
      match hc : v2.chars, this with
      | [q], _ => exact ⟨q, rfl⟩
    obtain ⟨q1, q2⟩ := s2.char 0 97 q rfl (by rw [hq]; rfl)
    have hq0 : 0 < q := by
      rcases q1.lt_or_eq with h | h
      · exact h
      · exact absurd (by rw [← h, costOf_zero] at q2; exact q2) (hfin _)
    have n2 : 0 < v2.earned 1 := by
      unfold Hub.Voice.earned
      rw [hq]
      have : (Hub.lastN 1 [q]).prod = q := by simp [Hub.lastN]
      rw [this]
      exact mul_pos (Real.exp_pos _) hq0
    simp only [List.map_cons, List.map_nil, List.sum_cons, List.sum_nil]
    linarith
  obtain ⟨res, h', e, -⟩ := hres hpos
  exact ⟨_, _, cfg, h1, h', [v1, v2], res, rfl, ha, rfl, hr1, hsp, hpos, e⟩

end Mozolm.System
