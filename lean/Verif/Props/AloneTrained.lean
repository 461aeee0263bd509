import Verif.Props.Alone
import Verif.Props.PpmTrainDemo

/-!
# C74: from the training text to the reply of the service
-/

namespace Mozolm.System
variable {encode : Int → Str} {fuel : Nat}
open Ppm in
/-- Where typing leads a trained PPM model. -/
theorem walk_trained {order : Nat} {o : Options XR} (ha : o.alpha ≠ .nan) (hb : o.beta ≠ .nan) {m0 : Ppm.Model Arith.xr}
    {ws ctxs : List (List Int)} (hi : Initial Arith.xr OkR o m0) (h2 : 2 ≤ order)
    (htr : Trained order ws ctxs m0.chars m0.core.fst) (hrange : ∀ w ∈ ws, ∀ x ∈ w, 0 < x ∧ x ≤ m0.chars)
    (text : List Int) : ∀ {tr : List (Op × Answer Arith.xr)} {m : Ppm.Model Arith.xr}, Run encode m0 tr m →
      (∀ e ∈ tr, e.1.Query) → ∀ {s : Nat} {c past : List Int}, ctxs[s]? = some c → LongestContext order ws past c →
      ∃ (t : Nat) (m' : Ppm.Model Arith.xr) (tr' : List (Op × Answer Arith.xr)) (d : List Int),
        walk encode fuel (.ppm m) (s : Int) text = (.ppm m', (t : Int)) ∧ Run encode m0 tr' m' ∧
        (∀ e ∈ tr', e.1.Query) ∧ ctxs[t]? = some d ∧
        LongestContext order ws ((text.map (typedLabel m0.symbols encode)).reverse ++ past) d := by
  have hlabel : ∀ sym, typedLabel m0.symbols encode sym ≠ 0 := by
    intro sym
    unfold typedLabel
    split <;> omega
  induction text with
  | nil => intro tr m hr hq s c past hs hl; exact ⟨s, m, tr, c, rfl, hr, hq, hs, by simpa using hl⟩
  | cons sym syms ih =>
    intro tr m hr hq s c past hs hl
    obtain ⟨t, m', d, k1, k2, k3⟩ := C69_next ha hb hi h2 htr hrange hr (.inr hq) hs sym
    have hcore := unchanged (laws_of o ha hb) hi hr (.inr hq)
    have hv : (Op.next s sym).Valid m := by
      show s < m.core.fst.states.length
      rw [hcore, htr.len]; exact lt_of_getElem?_eq_some hs
    have hr' : Run encode m0 (tr ++ [(.next s sym, .state (t : Int))]) m' :=
      hr.append (.cons hv (by simp only [step, wrap, k1]) .nil)
    have hq' : ∀ e ∈ tr ++ [(Op.next s sym, (Answer.state (t : Int) : Answer Arith.xr))], e.1.Query := by
      intro e he
      rcases List.mem_append.mp he with he | he
      · exact hq e he
      · rw [List.mem_singleton.mp he]; trivial
    obtain ⟨t', m'', tr', d', q1, q2, q3, q4, q5⟩ := ih hr' hq' k2 (hl.push (hlabel sym) k3)
    refine ⟨t', m'', tr', d', ?_, q2, q3, q4, by simpa using q5⟩
    rw [← q1]
    simp only [walk, System.next, k1, settle]

open Ppm in
/-- **C74** (trained model) A PPM model is trained from a text and served as the first model of a server that does
not mix.  As long as nothing is learnt, the reply to a typed text is made of the documented formula over the
counts of the training text: for end of string and every character, its probability after the longest context
of the training text that what was typed ends in. -/
theorem C74_trained {counter : Nat → List (List Int) → Fst XR} {o : Options XR} {order : Nat} {lines : List (List Str)}
    (hc : CounterOk counter) (ha : o.alpha ≠ .nan) (hb : o.beta ≠ .nan)
    (horder : (order : Int) = if o.maxOrder > 0 then o.maxOrder else 4) (h2 : 2 ≤ order)
    (hne : ∃ l ∈ lines, l ≠ []) (heps : epsilonName ∉ lines.flatten) {vocab : Option (List (List Str))}
    (hv : vocab ≠ some []) :
    ∃ m0 : Ppm.Model Arith.xr, readText counter o (some lines) (vocab.map some) = pure m0 ∧
      (∀ c, c ∈ m0.symbols.map Prod.snd ↔ c = epsilonName ∨ c ∈ lines.flatten ∨ c ∈ (vocab.getD []).flatten) ∧
      ∀ ms, (∀ m ∈ ms, Served encode m) →
      ∃ bound, ∀ fuel, bound ≤ fuel → ∀ orderN orderV, (env Arith.xr encode fuel orderN orderV).Fair →
      ∀ (cfg : Hub.HubConfig XR) reqs h, (cfg.mixture = .none ∨ cfg.weights.length < 2) →
        NothingLearnt (.ppm m0 :: ms) reqs →
        Server.Reach (env Arith.xr encode fuel orderN orderV) (.ppm m0 :: ms) cfg reqs h →
        ∀ text, (∀ c ∈ text, 0 ≤ c) → ∀ x, -2 ^ 31 ≤ x → x ≤ 0 →
        1 + (reqs.map Server.Request.symbols).sum + text.length ≤ Hub.cfgMax (A := Arith.xr) cfg →
        ∃ (d : List Int) (p : ℕ → ℝ) (res : LMScores XR) (h' : Hub.Hub Arith.xr (Component Arith.xr)),
          Server.getLMScores (env Arith.xr encode fuel orderN orderV) h text x = .ok (.ok res, h') ∧
          LongestContext order (labelLines m0.symbols lines)
            ((text.map (typedLabel m0.symbols encode)).reverse ++ [0]) d ∧
          res.symbols = [] :: m0.symbols.tail.map Prod.snd ∧
          res.probs = (List.range (m0.chars + 1)).map (fun y => .fin (p y)) ∧
          (∀ y ≤ m0.chars, 0 < p y ∧ TextProb order (labelLines m0.symbols lines) (effective o.alpha (1/2))
            (effective o.beta (3/4)) m0.chars y d (p y)) ∧
          ∑ y ∈ Finset.range (m0.chars + 1), p y = 1 := by
  obtain ⟨m0, ctxs, k1, k2, _, k4, k5, k6, k7⟩ := C67_training (counter := counter) hc ha hb horder h2 hne heps hv
  refine ⟨m0, k1, k4, fun ms hms => ?_⟩
  have hs : ∀ x ∈ Component.ppm m0 :: ms, Served encode x := by
    intro x hx
    rcases List.mem_cons.1 hx with rfl | hx
    · exact .ppm (laws_of o ha hb) k7
    · exact hms x hx
  obtain ⟨bound, hbd⟩ := C74_single hs
  refine ⟨bound, fun fuel hfu orderN orderV hf cfg reqs h hcfg hq hr text ht x hl hx hm => ?_⟩
  obtain ⟨h', e⟩ := hbd fuel hfu orderN orderV hf cfg reqs h hcfg hq hr text ht x hl hx hm
  have hst1 : ([0] : List Int).take (order - 1) = [0] := by
    obtain ⟨k, rfl⟩ : ∃ k, order = k + 2 := ⟨order - 2, by omega⟩
    show ([0] : List Int).take (k + 1) = [0]
    simp
  have hstart := k2.start
  rw [hst1] at hstart
  obtain ⟨t, m', tr', d, w1, w2, w3, w4, w5⟩ := walk_trained (encode := encode) (fuel := fuel) ha hb k7 h2 k2 k5 text
    (.nil) (by simp) (past := [0]) hstart ⟨k2.isContext hstart, List.prefix_rfl, fun e _ he => he.length_le⟩
  obtain ⟨s, p, r, m2, c1, c2, c3, c4, c5, c6⟩ := C68_text_probabilities ha hb k7 k6 k2 k5 w2 (.inr w3) w5.1
  have hst : s = t := by
    have h1 := lt_of_getElem?_eq_some c1
    refine (List.getElem?_inj h1 k2.nodup).1 (by rw [c1, w4])
  subst hst
  obtain ⟨ord0, u, h0, hd0, _⟩ := k7.known (laws_of o ha hb)
  obtain ⟨_, _, _, hp, _⟩ := run_inv w2 h0
  have hal : alone encode fuel (.ppm m0) text = some r := by
    have w1 : walk encode fuel (.ppm m0) (start (.ppm m0)) text = (.ppm m', (s : Int)) := w1
    simp only [alone, w1, System.extract, c2, settle]
  rw [hal] at e
  exact ⟨d, p, r, h', e, w5, by rw [c3, hp.symbols], c4, c5, c6⟩

/-! ## A case meeting the hypotheses -/

/-- C74: a server over a model trained from "ab", "aab"; after a request with an unknown character and an update of
count zero, the reply to "aa". -/
example : ∃ (m0 : Ppm.Model Arith.xr) (fuel : Nat) (cfg : Hub.HubConfig XR)
    (h h' : Hub.Hub Arith.xr (Component Arith.xr)) (d : List Int) (res : LMScores XR),
    Ppm.readText Ppm.TrainDemo.countNGrams Ppm.TrainDemo.options (some Ppm.TrainDemo.text) none = pure m0 ∧
    Server.Reach (env Arith.xr demoEncode fuel id id) [.ppm m0] cfg [.getLMScores [98, 99] 0, .updateLMScores 0 [97] 0] h ∧
    Server.getLMScores (env Arith.xr demoEncode fuel id id) h [97, 97] 0 = .ok (.ok res, h') ∧
    Ppm.LongestContext 2 (Ppm.labelLines m0.symbols Ppm.TrainDemo.text)
      (([97, 97].map (Ppm.typedLabel m0.symbols demoEncode)).reverse ++ [0]) d := by
  obtain ⟨m0, k1, _, hk⟩ := C74_trained (encode := demoEncode) (o := Ppm.TrainDemo.options) (order := 2)
    (lines := Ppm.TrainDemo.text) Ppm.TrainDemo.countNGrams_ok (by simp [Ppm.TrainDemo.options]) (by simp [Ppm.TrainDemo.options])
    (by simp [Ppm.TrainDemo.options]) (by omega) ⟨[[97], [98]], by simp [Ppm.TrainDemo.text], by simp⟩
    (by simp [Ppm.TrainDemo.text, Ppm.epsilonName]) (vocab := none) (by simp)
  obtain ⟨m1, _, k1', _, _, _, _, _, k7⟩ := Ppm.C67_training (o := Ppm.TrainDemo.options) (order := 2)
    (lines := Ppm.TrainDemo.text) Ppm.TrainDemo.countNGrams_ok (by simp [Ppm.TrainDemo.options]) (by simp [Ppm.TrainDemo.options])
    (by simp [Ppm.TrainDemo.options]) (by omega) ⟨[[97], [98]], by simp [Ppm.TrainDemo.text], by simp⟩
    (by simp [Ppm.TrainDemo.text, Ppm.epsilonName]) (vocab := none) (by simp)
  have : m1 = m0 := Ppm.Res.pure_inj (k1'.symm.trans k1)
  subst this
  have hs : ∀ m ∈ [Component.ppm m1], Served demoEncode m := by
    intro m hm
    rw [List.mem_singleton.1 hm]
    exact .ppm (Ppm.laws_of _ (by simp [Ppm.TrainDemo.options]) (by simp [Ppm.TrainDemo.options])) k7
  obtain ⟨b1, hb1⟩ := C72_service hs (by simp)
  obtain ⟨b2, hb2⟩ := C72_update_service hs (by simp)
  obtain ⟨b3, hb3⟩ := hk [] (by simp)
  have hf : (env Arith.xr demoEncode (max b1 (max b2 b3)) id id).Fair := ⟨fun _ => .refl _, fun _ => .refl _⟩
  let cfg : Hub.HubConfig XR :=
    { mixture := .none, weights := [], bayesianHistoryLength := 0, maxStates := 20 }
  have hcfg : cfg.mixture = .interpolation → cfg.weights.length ≤ [Component.ppm m1].length := fun _ => Nat.zero_le _
  obtain ⟨h0, hr0⟩ : ∃ h0, Hub.initializeModels (env Arith.xr demoEncode (max b1 (max b2 b3)) id id) [.ppm m1] cfg = .ok (some h0) :=
    ⟨_, by rw [Hub.initialize_eq hf, if_neg (by decide)]⟩
  obtain ⟨rep1, h1, e1, _⟩ := (hb1 _ (by omega) _ _ hf cfg [] h0 hcfg ⟨h0, hr0, rfl⟩).2 [98, 99] 0
  have hr1 : Server.Reach (env Arith.xr demoEncode (max b1 (max b2 b3)) id id) [.ppm m1] cfg [.getLMScores [98, 99] 0] h1 :=
    ⟨h0, hr0, by simp only [Server.serveAll, Server.serve, e1, ok_bind]⟩
  obtain ⟨calls, hc1⟩ := hr1.hub
  have hpos := (Hub.reach_good hf hc1).inv.pos
  obtain ⟨rep2, h2, e2, _⟩ := hb2 _ (by omega) _ _ hf cfg _ h1 hcfg hr1 0 (by decide) (by decide) (by omega) [97] (by decide) 0
  have hr2 : Server.Reach (env Arith.xr demoEncode (max b1 (max b2 b3)) id id) [.ppm m1] cfg
      [.getLMScores [98, 99] 0, .updateLMScores 0 [97] 0] h2 :=
    ⟨h0, hr0, by simp only [Server.serveAll, Server.serve, e1, e2, ok_bind]⟩
  obtain ⟨d, p, res, h', r1, r2, _⟩ := hb3 _ (by omega) _ _ hf cfg _ h2 (.inl rfl)
    (.inr fun s cs n h => by
      simp only [List.mem_cons, List.not_mem_nil, or_false, reduceCtorEq, Server.Request.updateLMScores.injEq, false_or] at h
      omega) hr2 [97, 97] (by decide) 0 (by decide) (by decide) (by decide)
  exact ⟨m1, _, cfg, h2, h', d, res, k1, hr2, r1, r2⟩

end Mozolm.System
