import Verif.Props.SystemUpdate
import Verif.Props.ServerAccuracy
import Verif.Props.PpmAccuracyDemo
import Verif.Props.NGramAccuracy
import Verif.Props.RoundingDemo

/-! # C93: a million symbols taught; the hypotheses are met -/

namespace Mozolm.Server

theorem ReplyMatch.mono {α β : Type} {Q Q' : α → β → Prop} {x : Reply α} {y : Reply β} (h : ReplyMatch Q x y) (hq : ∀ a b, Q a b → Q' a b) :
    ReplyMatch Q' x y := by
  cases h with
  | ok h => exact .ok (hq _ _ h)
  | invalidArgument => exact .invalidArgument

theorem AnswersMatch.le {φ : Prop} {ε δ : ℝ} {F : Rounding φ ε δ} {d n d' n' : ℝ} {N k : Nat} {σ τ : Type} {env : Hub.Env F.arith σ}
    {env' : Hub.Env Arith.xr τ} {h : Hub.Hub F.arith σ} {h' : Hub.Hub Arith.xr τ} (hm : AnswersMatch φ F d n N k env env' h h') (hd : d ≤ d') (hn : n ≤ n') :
    AnswersMatch φ F d' n' N k env env' h h' := by
  refine ⟨hm.next, fun ctx x rep h1 e => ?_, fun x cs c rep h1 hk e => ?_⟩
  · obtain ⟨r, h2, e2, q⟩ := hm.scores ctx x rep h1 e
    exact ⟨r, h2, e2, q.mono fun _ _ h => h.le hd hn⟩
  · obtain ⟨r, h2, e2, q⟩ := hm.update x cs c rep h1 hk e
    exact ⟨r, h2, e2, q.mono fun _ _ h => h.le hd hn⟩

end Mozolm.Server

namespace Mozolm.System
open XR Real
variable {φ : Prop} {ε δ a b : ℝ} {F : Rounding φ ε δ}

/-- **C93** A PPM model read from a vocabulary of up to a thousand characters, of order up to ten, with `beta` up to 3/4, in arithmetic as precise as
binary64 with costs below `2 ^ 10`, is a component with errors 1/50000 until a million symbols were taught. -/
theorem C93_vocabulary (hε : 0 ≤ ε) (hε1 : ε ≤ 2 ^ (-43 : Int)) (hδ0 : 0 ≤ δ) (hδ1 : δ ≤ 2 ^ (-53 : Int))
    {o : Ppm.Options XR} (hao : o.alpha = .fin a) (hbo : o.beta = .fin b) (ha : 0 < a) (ha1 : a < 1 - δ) (hb : 0 < b) (hb1 : b ≤ 3 / 4)
    (ho : 0 < o.maxOrder ∧ o.maxOrder ≤ 10) {ls : List (List Str)} (hls : ∃ c ∈ ls.flatten, c ∉ Ppm.epsilonTable.map Prod.snd)
    (hlen : ls.flatten.length ≤ 1000) :
    ∃ (mF : Ppm.Model F.arith) (m : Ppm.Model Arith.xr), Ppm.read F.arith o .none (some (some ls)) = pure mF ∧
      Ppm.read Arith.xr o .none (some (some ls)) = pure m ∧ Mates F hε (1 / 50000) (1 / 50000) 1001 1000000 (.ppm mF) (.ppm m) := by
  have e1 : (2 : ℝ) ^ (-43 : Int) ≤ 1 / 8000000000000 := by norm_num
  have e2 : (2 : ℝ) ^ (-53 : Int) ≤ 1 / 8000000000000000 := by norm_num
  replace hε1 := hε1.trans e1
  replace hδ1 := hδ1.trans e2
  clear e1 e2
  have hx : exp (2 * ε) ≤ 4 / 3 * (99 / 100) := by
    refine (Ppm.exp_le_inv (by linarith)).trans ?_
    rw [inv_le_comm₀ (by linarith) (by norm_num)]
    norm_num
    linarith
  have hb2 : b * exp (2 * ε) < 1 := by
    have := exp_pos (2 * ε)
    nlinarith
  obtain ⟨p1, p2, p3, p4⟩ := Ppm.C91_parameters F hδ0 hao hbo ha ha1 hb (by linarith)
  have hg : Ppm.Given F hε hb hb2 .none .none (some ls) := .vocabulary hls
  obtain ⟨mF, m, r1, r2, _, _⟩ := Ppm.C91_accuracy F hε hδ0 (by linarith) ha hb hb2 p1 p2 p3 p4 hg
  have L : Ppm.CountLaws Arith.xr Ppm.OkR (Ppm.initParameters Arith.xr o).beta := by rw [p4]; exact Ppm.laws hb (by linarith)
  obtain ⟨m0, ord, V, k1, k2, k3, _, _, k4, _, _, _⟩ := Ppm.read_vocab_ok (A := Arith.xr) (Ok := Ppm.OkR) L hls
  have hm : m = m0 := Ppm.Res.pure_inj (r2.symm.trans k1)
  subst hm
  have hV : m.chars = V := k3.dense.chars
  have hV1000 : V ≤ 1000 := k3.few.trans hlen
  have hmo : (m.core.maxOrder - 1).toNat ≤ 9 := by
    have hi : (Ppm.initParameters Arith.xr o).maxOrder = o.maxOrder := by
      show (if o.maxOrder > 0 then o.maxOrder else 4) = o.maxOrder
      rw [if_pos ho.1]
    rw [Ppm.vocab_maxOrder r2 k4, hi]
    split <;> omega
  have hVr : (V : ℝ) ≤ 1000 := by exact_mod_cast hV1000
  have hT : (1001001 + 1) * ε ≤ 1 / 1000000 := by nlinarith
  have hK : b * exp ((1001001 + 1) * ε) * (7 / 2 + 1) ≤ 7 / 2 := by
    have h1 : exp ((1001001 + 1) * ε) ≤ 1001 / 1000 := by
      refine (Ppm.exp_le_inv (by linarith)).trans ?_
      rw [inv_le_comm₀ (by linarith) (by norm_num)]
      norm_num
      linarith
    have h2 : b * exp ((1001001 + 1) * ε) ≤ 3 / 4 * (1001 / 1000) := mul_le_mul hb1 h1 (exp_pos _).le (by norm_num)
    linarith
  obtain ⟨q1, q2⟩ := Ppm.million_error hε hε1 hδ0 hδ1 (V := m.chars) (by omega) hmo (T := 1001001) le_rfl (by norm_num)
  refine ⟨mF, m, r1, r2, .ppm (T := 1001001) (K := 7 / 2) ha p1 p2 p3 p4 hg r1 r2 (fun s hs => ?_) (by norm_num) hK q1 q2 (by omega)⟩
  rw [hV, k4]
  have := Ppm.fresh_within V s (by rw [← k4]; exact hs)
  push_cast
  linarith

/-- **C93** So is any bigram model of up to 1001 symbols. -/
theorem C93_bigram (hε : 0 ≤ ε) (hε1 : ε ≤ 2 ^ (-43 : Int)) (hδ0 : 0 ≤ δ) (hδ1 : δ ≤ 2 ^ (-53 : Int)) {v c : Bigram.FileArg} {m : Bigram.Model}
    (hm : Bigram.read v c = .ok (some m)) (hV : m.utf8.length ≤ 1001) :
    Mates F hε (1 / 50000) (1 / 50000) 1001 1000000 (.bigram m) (.bigram m) := by
  have e1 : (2 : ℝ) ^ (-43 : Int) ≤ 1 / 8000000000000 := by norm_num
  have e2 : (2 : ℝ) ^ (-53 : Int) ≤ 1 / 8000000000000000 := by norm_num
  replace hε1 := hε1.trans e1
  replace hδ1 := hδ1.trans e2
  clear e1 e2
  have := Ppm.slack_le hδ0 (by linarith)
  exact .bigram hm (by linarith) (by linarith) hV

/-- **C93** So is any character n-gram model of up to a thousand symbols and order up to ten. -/
theorem C93_char (hε : 0 ≤ ε) (hε1 : ε ≤ 2 ^ (-43 : Int)) (hδ0 : 0 ≤ δ) (hδ1 : δ ≤ 2 ^ (-53 : Int)) {src : NGram.Source XR} {m : NGram.Model XR}
    (hm : NGram.read Arith.xr src = .ok (some m)) (hc : NGram.Closed m.fst) (ha : NGram.Acyclic m.fst) (hw : NGram.Weighted m.fst)
    (hd : NGram.Deep m.fst 9) (hk : m.symbols.tail.length ≤ 1000) :
    Mates F hε (1 / 50000) (1 / 50000) 1001 1000000 (.char m) (.char m) := by
  have e1 : (2 : ℝ) ^ (-43 : Int) ≤ 1 / 8000000000000 := by norm_num
  have e2 : (2 : ℝ) ^ (-53 : Int) ≤ 1 / 8000000000000000 := by norm_num
  replace hε1 := hε1.trans e1
  replace hδ1 := hδ1.trans e2
  clear e1 e2
  have hsl := Ppm.slack_le hδ0 (by linarith)
  have hk' : ((m.symbols.tail.length + 1 : Nat) : ℝ) ≤ 1001 := by exact_mod_cast (by omega : m.symbols.tail.length + 1 ≤ 1001)
  have hke : ((m.symbols.tail.length + 1 : Nat) : ℝ) * ε ≤ 1001 * (1 / 8000000000000) := mul_le_mul hk' hε1 hε (by norm_num)
  refine .char hm hc ha hw hd ?_ (by linarith) (by omega)
  unfold NGram.shareError NGram.symbolError
  norm_num at hke ⊢
  linarith

/-- **C93** In numbers: up to ten components as above, a Bayesian history of up to a hundred symbols. Until a million symbols were taught every
probability and every normalization served is within the factor `exp (1/100)` of what it is without rounding. -/
theorem C93_million (hε : 0 ≤ ε) (hε1 : ε ≤ 2 ^ (-43 : Int)) (hδ0 : 0 ≤ δ) (hδ1 : δ ≤ 2 ^ (-53 : Int)) {models : List (Component F.arith)}
    {models' : List (Component Arith.xr)} (hm : Pointwise (Mates F hε (1 / 50000) (1 / 50000) 1001 1000000) models models') (encode : Int → Str) :
    ∃ bound, ∀ fuel, bound ≤ fuel → ∀ orderN orderV orderV', (env F.arith encode fuel orderN orderV).Fair →
      (env Arith.xr encode fuel orderN orderV').Fair → ∀ cfg : Hub.HubConfig XR, (∀ c ∈ cfg.weights, ∃ p, 0 ≤ p ∧ c = costOf p) →
      cfg.weights.length ≤ 10 → cfg.bayesianHistoryLength ≤ 100 →
      ∀ reqs h, Server.Reach (A := F.arith) (env F.arith encode fuel orderN orderV) models cfg reqs h → Server.taught reqs ≤ 1000000 →
      ∃ h', Server.Reach (A := Arith.xr) (env Arith.xr encode fuel orderN orderV') models' cfg reqs h' ∧
        Server.AnswersMatch φ F (1 / 100) (1 / 100) 1000000 (Server.taught reqs) (env F.arith encode fuel orderN orderV)
          (env Arith.xr encode fuel orderN orderV') h h' := by
  have e1 : (2 : ℝ) ^ (-43 : Int) ≤ 1 / 8000000000000 := by norm_num
  have e2 : (2 : ℝ) ^ (-53 : Int) ≤ 1 / 8000000000000000 := by norm_num
  replace hε1 := hε1.trans e1
  replace hδ1 := hδ1.trans e2
  clear e1 e2
  have hsl := Ppm.slack_le hδ0 (by linarith)
  have hsl0 := slack_nonneg hδ0 (by linarith : δ < 1)
  obtain ⟨bound, hb⟩ := C93_service hδ0 (by linarith) (by norm_num) (by norm_num) hm encode
  refine ⟨bound, fun fuel hf orderN orderV orderV' h1 h2 cfg hc hw hl reqs h hr hN => ?_⟩
  obtain ⟨h', hr', ha⟩ := hb fuel hf orderN orderV orderV' h1 h2 cfg hc reqs h hr hN
  have hK : (Hub.cfgWeights (A := F.arith) cfg).length ≤ 10 := by
    unfold Hub.cfgWeights
    split
    · rw [Hub.normalizeWeights_length]; exact hw
    · simp
  have hL : Hub.cfgHlen (A := F.arith) cfg ≤ 100 := by
    unfold Hub.cfgHlen
    split <;> omega
  generalize (Hub.cfgWeights (A := F.arith) cfg).length = K at *
  generalize Hub.cfgHlen (A := F.arith) cfg = L at *
  have hKr : (K : ℝ) ≤ 10 := by exact_mod_cast hK
  have hLr : (L : ℝ) ≤ 100 := by exact_mod_cast hL
  have hK0 : (0 : ℝ) ≤ K := Nat.cast_nonneg K
  have hL0 : (0 : ℝ) ≤ L := Nat.cast_nonneg L
  have hKe : (K : ℝ) * ε ≤ 10 * (1 / 8000000000000) := mul_le_mul hKr hε1 hε (by norm_num)
  have hLe : (L : ℝ) * (1 / 50000 + ε) ≤ 100 * (1 / 50000 + 1 / 8000000000000) := mul_le_mul hLr (by linarith) (by linarith) (by norm_num)
  have hKs : ((K : ℝ) + 1) * slack δ ≤ 11 * (2 * (1 / 8000000000000000)) := mul_le_mul (by linarith) (by linarith) hsl0 (by norm_num)
  have hKV : ((K * 1001 : Nat) : ℝ) * ε ≤ 10010 * (1 / 8000000000000) :=
    mul_le_mul (by exact_mod_cast (by omega : K * 1001 ≤ 10010)) hε1 hε (by norm_num)
  have hwe : Hub.weightError ε (1 / 50000) K L ≤ 41 / 10000 := by
    unfold Hub.weightError
    linarith
  refine ⟨h', hr', ha.le ?_ ?_⟩
  · unfold Server.probError Hub.mixError
    linarith
  · unfold Server.countError Hub.normError
    linarith

/-! ## Components meeting the hypotheses -/

noncomputable def demoChar : NGram.Source XR :=
  { noFile := false, fst := some NGram.demoXR, inSymbols := some [(0, [101]), (1, [97])], noVocabulary := true, vocabulary := none,
    canonical := fun _ => true, normalized := fun _ => true, maxOrder := fun _ => 2 }

set_option maxRecDepth 20000 in
theorem demo_bigram_small : ∃ b, Bigram.read .absent .absent = .ok (some b) ∧ b.utf8.length ≤ 1001 := ⟨_, rfl, by decide⟩

/-- C93_service, C93_million: a server with a bigram model, a character n-gram model and a PPM model in binary64 arithmetic with costs below `2 ^ 10`. It
was taught "ab" three times and then asked about the context "a". -/
example : ∃ (models : List (Component (binary64 10).arith)) (models' : List (Component Arith.xr)) (fuel : Nat)
    (h h' : Hub.Hub (binary64 10).arith (Component (binary64 10).arith)) (g g' : Hub.Hub Arith.xr (Component Arith.xr))
    (rep : Server.Reply (LMScores XR)) (rep' : Server.Reply (LMScores XR)), models.length = 3 ∧
    Server.Reach (A := (binary64 10).arith) (env (binary64 10).arith demoEncode' fuel id id) models
      ⟨.interpolation, [.fin 0, .fin (log 2), .fin 1], 3, 20⟩ [.updateLMScores 0 [97, 98] 3] h ∧
    Server.Reach (A := Arith.xr) (env Arith.xr demoEncode' fuel id id) models'
      ⟨.interpolation, [.fin 0, .fin (log 2), .fin 1], 3, 20⟩ [.updateLMScores 0 [97, 98] 3] g ∧
    Server.getLMScores (env (binary64 10).arith demoEncode' fuel id id) h [97] 0 = .ok (rep, h') ∧
    Server.getLMScores (env Arith.xr demoEncode' fuel id id) g [97] 0 = .ok (rep', g') ∧
    Server.ReplyMatch (ScoresMatch True (1 / 100) (1 / 100)) rep rep' := by
  have hε : (0 : ℝ) ≤ 2 ^ ((10 : Int) - 53) := by positivity
  have hδ : (0 : ℝ) ≤ 2 ^ (-53 : Int) := by positivity
  have hε1 : (2 : ℝ) ^ ((10 : Int) - 53) ≤ 2 ^ (-43 : Int) := by norm_num
  obtain ⟨b, hb, hb2⟩ := demo_bigram_small
  have hc : NGram.read Arith.xr demoChar = .ok (some NGram.demoModel) := rfl
  have hd : NGram.Deep NGram.demoModel.fst 9 := fun s ws t h => le_trans (NGram.demoXR_deep s ws t h) (by norm_num)
  obtain ⟨pF, p, hpF, hp, hpm⟩ := C93_vocabulary (F := binary64 10) (a := 1 / 4) (b := 3 / 10) hε hε1 hδ le_rfl
    (o := ⟨3, .fin (1 / 4), .fin (3 / 10), false, 0, false⟩) rfl rfl (by norm_num) (by norm_num) (by norm_num) (by norm_num) (by decide) Ppm.Demo.vocab_ok
    (by decide)
  have hm : Pointwise (Mates (binary64 10) hε (1 / 50000) (1 / 50000) 1001 1000000) [.bigram b, .char NGram.demoModel, .ppm pF]
      [.bigram b, .char NGram.demoModel, .ppm p] :=
    .cons (C93_bigram hε hε1 hδ le_rfl hb hb2) (.cons (C93_char hε hε1 hδ le_rfl hc NGram.demoXR_ok.1 NGram.demoXR_ok.2.1 NGram.demoXR_ok.2.2 hd
      (by simp [NGram.demoModel])) (.cons hpm .nil))
  have L := C88_counts (binary64 10) (by norm_num) (by norm_num) (o := ⟨3, .fin (1 / 4), .fin (3 / 10), false, 0, false⟩) (β := 3 / 10) rfl
    (by norm_num) (by norm_num)
  have hs : ∀ m ∈ [Component.bigram (A := (binary64 10).arith) b, .char NGram.demoModel, .ppm pF], Served demoEncode' m := fun m hm => by
    simp only [List.mem_cons, List.not_mem_nil, or_false] at hm
    rcases hm with rfl | rfl | rfl
    · exact .bigram hb
    · exact .char (src := demoChar) (by rw [NGram.C92_read]; exact hc) NGram.demoXR_ok.1 NGram.demoXR_ok.2.1
    · exact .ppm L (.vocabulary Ppm.Demo.vocab_ok hpF)
  obtain ⟨b1, hb1⟩ := C72_service hs (by simp)
  obtain ⟨b2, hb2⟩ := C72_update_service hs (by simp)
  obtain ⟨b3, hb3⟩ := C93_million hε hε1 hδ le_rfl hm demoEncode'
  have hf : (env (binary64 10).arith demoEncode' (max b1 (max b2 b3)) id id).Fair := ⟨fun _ => .refl _, fun _ => .refl _⟩
  have hf' : (env Arith.xr demoEncode' (max b1 (max b2 b3)) id id).Fair := ⟨fun _ => .refl _, fun _ => .refl _⟩
  let cfg : Hub.HubConfig XR := ⟨.interpolation, [.fin 0, .fin (log 2), .fin 1], 3, 20⟩
  obtain ⟨h0, hr0⟩ : ∃ h0, Hub.initializeModels (A := (binary64 10).arith) (env (binary64 10).arith demoEncode' (max b1 (max b2 b3)) id id)
      [.bigram b, .char NGram.demoModel, .ppm pF] cfg = .ok (some h0) := ⟨_, by rw [Hub.initialize_eq hf, if_neg (by simp [cfg])]⟩
  have hcfg : cfg.mixture = .interpolation → cfg.weights.length ≤ 3 := fun _ => by simp [cfg]
  have hr0' : Server.Reach (A := (binary64 10).arith) (env (binary64 10).arith demoEncode' (max b1 (max b2 b3)) id id)
      [.bigram b, .char NGram.demoModel, .ppm pF] cfg [] h0 := ⟨h0, hr0, rfl⟩
  obtain ⟨calls, hc0⟩ := hr0'.hub
  have hpos := (Hub.reach_good hf hc0).inv.pos
  obtain ⟨rep2, h2, e2, _⟩ := hb2 _ (by omega) _ _ hf cfg _ h0 hcfg hr0' 0 (by decide) (by decide) (by omega) [97, 98] (by decide) 3
  have hr2 : Server.Reach (A := (binary64 10).arith) (env (binary64 10).arith demoEncode' (max b1 (max b2 b3)) id id)
      [.bigram b, .char NGram.demoModel, .ppm pF] cfg [.updateLMScores 0 [97, 98] 3] h2 :=
    ⟨h0, hr0, by simp only [Server.serveAll, Server.serve, e2, ok_bind]⟩
  obtain ⟨rep, h', e3, _⟩ := (hb1 _ (by omega) _ _ hf cfg _ h2 hcfg hr2).2 [97] 0
  have hw : ∀ c ∈ cfg.weights, ∃ p, 0 ≤ p ∧ c = costOf p := fun c hc => by
    have hfin : ∀ r : ℝ, ∃ p, 0 ≤ p ∧ XR.fin r = costOf p := fun r => ⟨_, (Real.exp_pos _).le, NGram.fin_eq_costOf r⟩
    simp only [cfg, List.mem_cons, List.not_mem_nil, or_false] at hc
    rcases hc with rfl | rfl | rfl <;> exact hfin _
  obtain ⟨g, hg, ha⟩ := hb3 _ (by omega) id id id hf hf' cfg hw (by simp [cfg]) (by simp [cfg]) _ h2 hr2 (by decide)
  obtain ⟨rep', g', e4, e5⟩ := ha.scores _ _ _ _ e3
  exact ⟨_, _, _, h2, h', g, g', rep, rep', rfl, hr2, hg, e3, e4, e5⟩

end Mozolm.System
