import Verif.System.JavaLearningSpec
import Verif.Ppm.Unigram
import Verif.Props.Session
import Verif.Props.Example
import Verif.Props.PpmMemoryDemo
import Verif.Props.Code

/-!
# C111: the Java example that teaches
-/

namespace Mozolm.System
open Mozolm.Hub Mozolm.Server
open Mozolm.Ppm (Memory Learner spelled)

section
variable {A : Arith} {σ : Type} {env : Env A σ}

/-! ## Code units -/

/-- what the loop teaches and how it goes on -/
def unitLessons : List Nat → List (Int × List Int)
  | [] => []
  | c :: l => (codePointAt c l, charAtAsText c) :: unitLessons l

theorem learningLoop_session (l : List Nat) : ∀ {h : Hub A σ} {s : Int} {out : Option Unit} {h' : Hub A σ},
    learningLoop env h s l = .ok (out, h') ↔ Session env h s (unitLessons l) out h' := by
  induction l with
  | nil =>
    intro h s out h'
    constructor
    · intro he
      obtain ⟨⟨u, h1⟩, e1, e2⟩ := bind_ok.1 he
      cases u with
      | invalidArgument => cases e2; exact .refusedEnd e1
      | ok r => cases e2; exact .ended e1
    · intro hs
      cases hs with
      | refusedEnd e1 => simp only [learningLoop, e1, ok_bind]
      | ended e1 => simp only [learningLoop, e1, ok_bind]
  | cons c l ih =>
    intro h s out h'
    constructor
    · intro he
      obtain ⟨⟨u, h1⟩, e1, e2⟩ := bind_ok.1 he
      cases u with
      | invalidArgument => cases e2; exact .refused e1
      | ok r =>
        obtain ⟨⟨v, h2⟩, e3, e4⟩ := bind_ok.1 e2
        cases v with
        | invalidArgument => cases e4; exact .lost e1 e3
        | ok s' => exact .next e1 e3 (ih.1 e4)
    · intro hs
      cases hs with
      | refused e1 => simp only [learningLoop, e1, ok_bind]
      | lost e1 e3 => simp only [learningLoop, e1, ok_bind, e3]
      | next e1 e3 e5 => simp only [learningLoop, e1, ok_bind, e3, ih.2 e5]

theorem unitLessons_utf16 {c : Nat} (hc : Scalar c) (l : List Nat) : unitLessons (utf16 c ++ l) = lessonsOf c ++ unitLessons l := by
  unfold Scalar at hc
  by_cases h : c < 0x10000
  · rw [utf16, if_pos h, lessonsOf, if_pos h]
    have h1 : highSurrogate c = false := by simp [highSurrogate]; omega
    have h2 : lowSurrogate c = false := by simp [lowSurrogate]; omega
    have h3 : codePointAt c l = c := by
      cases l with
      | nil => rfl
      | cons v l => simp [codePointAt, h1]
    simp only [List.cons_append, List.nil_append, unitLessons, h3, charAtAsText, h1, h2, Bool.or_self, Bool.false_eq_true, if_false]
  · rw [utf16, if_neg h, lessonsOf, if_neg h]
    generalize ha : (c - 0x10000) / 0x400 = a
    generalize hb : (c - 0x10000) % 0x400 = b
    have hab : c = a * 0x400 + b + 0x10000 := by omega
    have hlt : a < 0x400 ∧ b < 0x400 := by omega
    have h1 : highSurrogate (0xD800 + a) = true := by simp [highSurrogate]; omega
    have h2 : lowSurrogate (0xDC00 + b) = true := by simp [lowSurrogate]; omega
    have h3 : highSurrogate (0xDC00 + b) = false := by simp [highSurrogate]
    have h4 : codePointAt (0xDC00 + b) l = ((0xDC00 + b : Nat) : Int) := by
      cases l with
      | nil => rfl
      | cons v l => simp [codePointAt, h3]
    have h5 : codePointAt (0xD800 + a) ((0xDC00 + b) :: l) = c := by
      simp only [codePointAt, h1, h2, Bool.and_self, if_true, hab]
      push_cast
      ring
    simp only [List.cons_append, List.nil_append, unitLessons, h4, h5, charAtAsText, h1, h2, Bool.or_true, Bool.true_or, if_true]

/-- **C111** What the example does with a text: for each character of the Basic Multilingual Plane one update and one request for the
next state; for each other character two of each, of which the second update is for half a surrogate pair, and the state asked for
is that after a question mark. -/
theorem C111_characters {h h' : Hub A σ} {s : Int} {out : Option Unit} {text : List Nat} (ht : ∀ c ∈ text, Scalar c) :
    learningLoop env h s (text.flatMap utf16) = .ok (out, h') ↔ Session env h s (text.flatMap lessonsOf) out h' := by
  have e : unitLessons (text.flatMap utf16) = text.flatMap lessonsOf := by
    induction text with
    | nil => rfl
    | cons c text ih =>
      rw [List.flatMap_cons, List.flatMap_cons, unitLessons_utf16 (ht c (by simp)), ih fun d hd => ht d (by simp [hd])]
  rw [learningLoop_session, e]

/-- the loop over a text of the Basic Multilingual Plane is that of C78 -/
theorem learningLoop_plain {text : List Nat} (ht : ∀ c ∈ text, c < 0xD800 ∨ 0xE000 ≤ c) : ∀ (h : Hub A σ) (s : Int),
    learningLoop env h s text = (do let r ← updateModel env 1 h s (text.map fun c : Nat => (c : Int)); .ok (r.1.map fun _ => (), r.2)) := by
  induction text with
  | nil =>
    intro h s
    simp only [learningLoop, updateModel, List.map_nil]
    cases hu : updateLMScores env h s [0] 1 with
    | error f => rfl
    | ok u =>
      obtain ⟨u, h1⟩ := u
      cases u <;> rfl
  | cons c text ih =>
    intro h s
    have hc := ht c (by simp)
    have h1 : highSurrogate c = false := by simp [highSurrogate]; omega
    have h2 : lowSurrogate c = false := by simp [lowSurrogate]; omega
    have h3 : codePointAt c text = c := by
      cases text with
      | nil => rfl
      | cons v l => simp [codePointAt, h1]
    simp only [learningLoop, updateModel, List.map_cons, h3, charAtAsText, h1, h2, Bool.or_self, Bool.false_eq_true, if_false]
    cases hu : updateLMScores env h s [(c : Int)] 1 with
    | error f => rfl
    | ok u =>
      obtain ⟨u, h4⟩ := u
      cases u with
      | invalidArgument => rfl
      | ok r =>
        simp only [ok_bind, withReply]
        cases hn : getNextState env h4 [(c : Int)] s with
        | error f => rfl
        | ok v =>
          obtain ⟨v, h5⟩ := v
          cases v with
          | invalidArgument => rfl
          | ok s' =>
            simp only [ok_bind]
            rw [ih (fun d hd => ht d (by simp [hd]))]
            cases updateModel env 1 h5 s' (text.map fun c : Nat => (c : Int)) with
            | error f => rfl
            | ok w => obtain ⟨w, h6⟩ := w; cases w <;> rfl

end

/-! ## A run -/

section
variable {A : Arith} {encode : Int → Str} {models : List (Component A)}

theorem codePointAt_nonneg (c : Nat) (l : List Nat) : 0 ≤ codePointAt c l := by
  cases l with
  | nil => exact Int.natCast_nonneg c
  | cons v l =>
    simp only [codePointAt]
    split
    · next h =>
      simp only [highSurrogate, lowSurrogate, Bool.and_eq_true, decide_eq_true_eq] at h
      omega
    · exact Int.natCast_nonneg c

theorem charAtAsText_ne (c : Nat) : charAtAsText c ≠ [] := by
  unfold charAtAsText
  split <;> simp

/-- what the example makes of a reply -/
def shown : Reply (LMScores A.D) → JavaResult (List (A.D × Str))
  | .invalidArgument => .refused
  | .ok r => .returns (r.probs.zip r.symbols)

/-- what becomes of a query of the example -/
theorem getProbs_ok {fuel : Nat} {orderN : List (Int × Nat) → List (Int × Nat)} {orderV : List (Str × A.C) → List (Str × A.C)}
    (hf : (env A encode fuel orderN orderV).Fair) (hl : ∀ m ∈ models, live encode fuel m) {cfg : HubConfig A.C} {reqs : List Request}
    {h h' : Hub A (Component A)} (hr : Server.Reach (env A encode fuel orderN orderV) models cfg reqs h) {rep : Reply (LMScores A.D)}
    (he : getLMScores (env A encode fuel orderN orderV) h [] 0 = .ok (rep, h')) :
    getProbs (env A encode fuel orderN orderV) h 0 [] =
      .ok (shown rep, h') := by
  cases rep with
  | invalidArgument => simp only [getProbs, he, ok_bind, shown]
  | ok r =>
    have := reply_sizes hf hl hr he
    simp only [getProbs, he, ok_bind, shown]
    rw [if_neg (by simpa using this)]

theorem reach_ask {fuel : Nat} {orderN : List (Int × Nat) → List (Int × Nat)} {orderV : List (Str × A.C) → List (Str × A.C)}
    {h h' : Hub A (Component A)} {rep : Reply (LMScores A.D)}
    (he : getLMScores (env A encode fuel orderN orderV) h [] 0 = .ok (rep, h')) :
    Server.serveAll (env A encode fuel orderN orderV) h [.getLMScores [] 0] = .ok h' := by
  simp only [Server.serveAll, Server.serve, he, ok_bind]

/-- the loop completes, and is a history of requests -/
theorem learningLoop_completes (hs : ∀ m ∈ models, Served encode m) (hm : 0 < models.length) :
    ∃ bound, ∀ fuel, bound ≤ fuel → ∀ orderN orderV, (env A encode fuel orderN orderV).Fair →
      ∀ cfg, (cfg.mixture = .interpolation → cfg.weights.length ≤ models.length) → cfgMax (A := A) cfg < 2 ^ 31 →
        ∀ text reqs h (s : Int), Server.Reach (env A encode fuel orderN orderV) models cfg reqs h → 0 ≤ s → s < h.states.length →
        ∃ out h' more, learningLoop (env A encode fuel orderN orderV) h s text = .ok (out, h') ∧
          Server.Reach (env A encode fuel orderN orderV) models cfg (reqs ++ more) h' := by
  obtain ⟨bound, hb⟩ := C72_update_service hs hm
  refine ⟨bound, fun fuel hfu orderN orderV hf cfg hcfg hmax text => ?_⟩
  induction text with
  | nil =>
    intro reqs h s hr hs0 hs1
    have hle := (hr.good hf).inv.le
    have hmx : h.max = cfgMax (A := A) cfg := (hr.good hf).const.max
    obtain ⟨rep, h1, e1, _⟩ := hb fuel hfu orderN orderV hf cfg reqs h hcfg hr s hs0 (by omega) hs1 [0] (by simp) 1
    have hr1 := reach_append hr (show Server.serveAll (env A encode fuel orderN orderV) h [.updateLMScores s [0] 1] = .ok h1 by
      simp only [Server.serveAll, Server.serve, e1, ok_bind])
    cases rep with
    | ok r => exact ⟨_, _, _, by simp only [learningLoop, e1, ok_bind]; rfl, hr1⟩
    | invalidArgument => exact ⟨_, _, _, by simp only [learningLoop, e1, ok_bind]; rfl, hr1⟩
  | cons c text ih =>
    intro reqs h s hr hs0 hs1
    have hle := (hr.good hf).inv.le
    have hmx : h.max = cfgMax (A := A) cfg := (hr.good hf).const.max
    obtain ⟨rep, h1, e1, _⟩ := hb fuel hfu orderN orderV hf cfg reqs h hcfg hr s hs0 (by omega) hs1 [codePointAt c text]
      (by simpa using codePointAt_nonneg c text) 1
    have hr1 := reach_append hr (show Server.serveAll (env A encode fuel orderN orderV) h [.updateLMScores s [codePointAt c text] 1] = .ok h1 by
      simp only [Server.serveAll, Server.serve, e1, ok_bind])
    cases rep with
    | invalidArgument => exact ⟨_, _, _, by simp only [learningLoop, e1, ok_bind]; rfl, hr1⟩
    | ok r =>
      have h32 : toInt32 s = s := toInt32_of_range (by omega) (by omega)
      obtain ⟨s', h2, e2, g2, v2, _⟩ := contextLoop_ok hf (hr1.good hf).inv s (charAtAsText c)
      have e2' : getNextState (env A encode fuel orderN orderV) h1 (charAtAsText c) s = .ok (.ok s', h2) := by
        simp only [getNextState, contextState, h32, if_neg (show ¬ s < 0 by omega), e2, ok_bind]
      have hr2 := reach_append hr1 (show Server.serveAll (env A encode fuel orderN orderV) h1 [.getNextState (charAtAsText c) s] = .ok h2 by
        simp only [Server.serveAll, Server.serve, e2', ok_bind])
      obtain ⟨v3, v4⟩ := v2 (charAtAsText_ne c)
      obtain ⟨out, h3, more, e3, hr3⟩ := ih _ h2 s' hr2 v3 v4
      exact ⟨_, _, _, by simp only [learningLoop, e1, ok_bind, e2', e3]; rfl, by rw [List.append_assoc, List.append_assoc] at hr3; exact hr3⟩

/-- **C111** Whatever was requested before and whatever the text, the run comes to an end, and not with an assertion or by reaching
beyond a list: it shows the estimates before and after, or the server has refused a request. -/
theorem C111_completes (hs : ∀ m ∈ models, Served encode m) (hm : 0 < models.length) :
    ∃ bound, ∀ fuel, bound ≤ fuel → ∀ orderN orderV, (env A encode fuel orderN orderV).Fair →
      ∀ cfg reqs h, (cfg.mixture = .interpolation → cfg.weights.length ≤ models.length) → cfgMax (A := A) cfg < 2 ^ 31 →
        Server.Reach (env A encode fuel orderN orderV) models cfg reqs h → ∀ text,
        ∃ out h', runLearning (env A encode fuel orderN orderV) h text = .ok (out, h') ∧ (out = .refused ∨ ∃ e, out = .returns e) := by
  obtain ⟨b1, hb1⟩ := C72_service hs hm
  obtain ⟨b2, hb2⟩ := served_live hs
  obtain ⟨b3, hb3⟩ := learningLoop_completes hs hm
  refine ⟨max b1 (max b2 b3), fun fuel hfu orderN orderV hf cfg reqs h hcfg hmax hr text => ?_⟩
  have hlive := hb2 fuel (by omega)
  have ask : ∀ {reqs h}, Server.Reach (env A encode fuel orderN orderV) models cfg reqs h →
      ∃ (rep : Reply (LMScores A.D)) (h' : Hub A (Component A)), Server.Reach (env A encode fuel orderN orderV) models cfg (reqs ++ [.getLMScores [] 0]) h' ∧
        getProbs (env A encode fuel orderN orderV) h 0 [] =
          .ok (shown rep, h') := by
    intro reqs h hr
    obtain ⟨rep, h', e, _⟩ := (hb1 fuel (by omega) orderN orderV hf cfg reqs h hcfg hr).2 [] 0
    exact ⟨rep, h', reach_append hr (reach_ask e), getProbs_ok hf hlive hr e⟩
  obtain ⟨rep0, h0, r0, e0⟩ := ask hr
  cases rep0 with
  | invalidArgument => exact ⟨.refused, h0, by simp only [runLearning, e0, ok_bind, shown], .inl rfl⟩
  | ok x0 =>
    have hpos := (r0.good hf).inv.pos
    obtain ⟨out, h1, more, e1, r1⟩ := hb3 fuel (by omega) orderN orderV hf cfg hcfg hmax text _ h0 0 r0 (by omega) (by omega)
    cases out with
    | none => exact ⟨.refused, h1, by simp only [runLearning, e0, ok_bind, shown, teach, e1], .inl rfl⟩
    | some u =>
      obtain ⟨rep2, h2, r2, e2⟩ := ask r1
      cases rep2 with
      | invalidArgument => exact ⟨.refused, h2, by simp only [runLearning, e0, ok_bind, shown, teach, e1, e2], .inl rfl⟩
      | ok x2 =>
        obtain ⟨rep3, h3, r3, e3⟩ := ask r2
        cases rep3 with
        | invalidArgument => exact ⟨.refused, h3, by simp only [runLearning, e0, ok_bind, shown, teach, e1, e2, e3], .inl rfl⟩
        | ok x3 => exact ⟨_, h3, by simp only [runLearning, e0, ok_bind, shown, teach, e1, e2, e3]; rfl, .inr ⟨_, rfl⟩⟩

end

section
variable {encode : Int → Str} {o : Ppm.Options XR} {K : Nat} {M0 : Memory} {m0 : Ppm.Model Arith.xr} {models : List (Component Arith.xr)}

/-- **C111** A run against a server with a PPM model that learns, with a text of the Basic Multilingual Plane: if there is room in the
state table the estimates shown first are those of the memory after the requests before, at the beginning of a string, and those shown
last are those of the memory that has learnt in addition each character after the text before it, and the end. -/
theorem C111_run (hl : Learner o K M0 m0) (hms : models.head? = some (.ppm m0)) (hs : ∀ m ∈ models, Served encode m) :
    ∃ bound, ∀ fuel, bound ≤ fuel → ∀ orderN orderV, (env Arith.xr encode fuel orderN orderV).Fair →
      ∀ (cfg : HubConfig XR) reqs h, (cfg.mixture = .interpolation → cfg.weights.length < 2) → cfg.maxStates < 2 ^ 31 →
        Server.Reach (env Arith.xr encode fuel orderN orderV) models cfg reqs h →
        ∃ (h0 : Hub Arith.xr (Component Arith.xr)) (M : Memory),
          initializeModels (env Arith.xr encode fuel orderN orderV) models cfg = .ok (some h0) ∧
          Taught (env Arith.xr encode fuel orderN orderV) K (Ppm.alphabet m0.symbols encode) h0 M0 reqs h M ∧
          ∀ text : List Nat, (∀ c ∈ text, c < 0xD800 ∨ 0xE000 ≤ c) →
            ∃ (out : JavaResult (Estimates Arith.xr)) (h' : Hub Arith.xr (Component Arith.xr)) (M' : Memory),
              runLearning (env Arith.xr encode fuel orderN orderV) h text = .ok (out, h') ∧
              M' = M.uses K m0.chars (Ppm.alphabet m0.symbols encode) (spelled 1 [] (text.map (fun c : Nat => (c : Int)) ++ [0])) ∧
              ((∀ c ∈ text, (Ppm.alphabet m0.symbols encode).taught c ≠ none) →
                M' = M.learn K (Ppm.alphabet m0.symbols encode) 1 [0] (text.map (fun c : Nat => (c : Int)) ++ [0])) ∧
              (1 + (reqs.map Request.symbols).sum + (4 * text.length + 3) ≤ cfgMax (A := Arith.xr) cfg → h'.selfRecycled = false) ∧
              (h'.selfRecycled = false → ∃ (e : Estimates Arith.xr) (r r' : LMScores XR), out = .returns e ∧ Estimated r e.initial ∧ Estimated r' e.final ∧
                Tells o m0.symbols m0.chars M [0] r ∧ Tells o m0.symbols m0.chars M' [0] r') := by
  obtain ⟨b1, hb1⟩ := served_live hs
  have hm : 0 < models.length := by
    cases models with
    | nil => cases hms
    | cons => simp
  obtain ⟨b2, hb2⟩ := session_completes hs hm
  obtain ⟨b3, hb3⟩ := C72_service hs hm
  refine ⟨max b1 (max b2 b3), fun fuel hfu orderN orderV hf cfg reqs h hcfg hmx hr => ?_⟩
  have hw := weights_single hcfg
  have hcfg' : cfg.mixture = .interpolation → cfg.weights.length ≤ models.length := fun x => by have := hcfg x; omega
  have hmax : cfgMax (A := Arith.xr) cfg < 2 ^ 31 := by unfold cfgMax; split <;> omega
  have hlive := hb1 fuel (by omega)
  obtain ⟨h0, M, ctxs, k1, k2, k3, k4, k5⟩ := ready_reach hf hl hlive (j := 0) (by rw [← hms, List.head?_eq_getElem?]) (by omega) hr
  refine ⟨h0, M, k1, k2, fun text ht => ?_⟩
  -- a query
  have ask : ∀ {reqs h M ctxs}, Server.Reach (env Arith.xr encode fuel orderN orderV) models cfg reqs h →
      Ready encode fuel orderN orderV K m0 0 M ctxs h → h.weights.length < 2 →
      ∃ (out : JavaResult (List (XR × Str))) (h' : Hub Arith.xr (Component Arith.xr)) (ctxs' : List (List Int)),
        getProbs (env Arith.xr encode fuel orderN orderV) h 0 [] = .ok (out, h') ∧ (out = .refused ∨ ∃ l, out = .returns l) ∧
        Server.Reach (env Arith.xr encode fuel orderN orderV) models cfg (reqs ++ [.getLMScores [] 0]) h' ∧
        Ready encode fuel orderN orderV K m0 0 M ctxs' h' ∧ Good (env Arith.xr encode fuel orderN orderV) h h' ∧
        (h'.selfRecycled = false → ∃ (l : List (XR × Str)) (r : LMScores XR), out = .returns l ∧ Estimated r l ∧ Tells o m0.symbols m0.chars M [0] r) := by
    intro reqs h M ctxs hr hready hwt
    obtain ⟨rep, h', e, _⟩ := (hb3 fuel (by omega) orderN orderV hf cfg reqs h hcfg' hr).2 [] 0
    have es := reach_ask e
    obtain ⟨M1, ctxs1, t1, t2⟩ := hready.serveAll hf hl _ es
    have hM : M1 = M := by
      cases t1 with
      | cons _ x y => cases y; exact x
    subst hM
    have hp := getProbs_ok hf hlive hr e
    refine ⟨_, h', ctxs1, hp, ?_, reach_append hr es, t2, serveAll_good hf hready.own.inv es, fun hg => ?_⟩
    · cases rep with
      | ok r => exact .inr ⟨_, rfl⟩
      | invalidArgument => exact .inl rfl
    · obtain ⟨r, c, rfl, _, _, hc, htell⟩ := hready.asks hf hl hwt [] (by simp) 0 (by decide) (by decide) rep h' e hg
      obtain rfl := hc rfl
      have hsz := reply_sizes hf hlive hr e
      exact ⟨_, r, rfl, ⟨List.map_fst_zip (by omega), List.map_snd_zip (by omega)⟩, htell⟩
  obtain ⟨out0, h1, ctxs1, a1, a2, a3, a4, a5, a6⟩ := ask hr k3 (by rw [k5]; omega)
  have hpos := (a3.good hf).inv.pos
  obtain ⟨outl, h2, e2⟩ := hb2 fuel (by omega) orderN orderV hf cfg hcfg' hmax 1 (text.map fun c : Nat => (c : Int))
    (fun c hc => by obtain ⟨d, _, rfl⟩ := List.mem_map.1 hc; exact Int.natCast_nonneg d) _ h1 0 a3 (by omega) (by omega)
  obtain ⟨more, f1, f2⟩ := updateModel_requests 1 _ e2
  rw [List.length_map] at f2
  have hr2 := reach_append a3 f1
  have gd2 := serveAll_good hf a5.inv f1
  have hloop : learningLoop (env Arith.xr encode fuel orderN orderV) h1 0 text = .ok (outl.map fun _ => (), h2) := by
    rw [learningLoop_plain ht, e2]; rfl
  have hlearn : (∀ c ∈ text, (Ppm.alphabet m0.symbols encode).taught c ≠ none) →
      M.uses K m0.chars (Ppm.alphabet m0.symbols encode) (spelled 1 [] (text.map (fun c : Nat => (c : Int)) ++ [0])) =
        M.learn K (Ppm.alphabet m0.symbols encode) 1 [0] (text.map (fun c : Nat => (c : Int)) ++ [0]) := by
    intro hk
    have := learn_spelled hl k3 (n := 1) (by omega) (text := text.map (fun c : Nat => (c : Int)) ++ [0]) (fun c hc => by
      rcases List.mem_append.1 hc with hc | hc
      · obtain ⟨d, hd, rfl⟩ := List.mem_map.1 hc
        exact hk d hd
      · rw [List.mem_singleton.1 hc]; simp [Ppm.alphabet])
    rw [this, counted, if_pos (by omega)]
    rfl
  have hend : ∃ (out : JavaResult (Estimates Arith.xr)) (h' : Hub Arith.xr (Component Arith.xr)),
      runLearning (env Arith.xr encode fuel orderN orderV) h text = .ok (out, h') ∧
      (1 + (reqs.map Request.symbols).sum + (4 * text.length + 3) ≤ cfgMax (A := Arith.xr) cfg → h'.selfRecycled = false) ∧
      (h'.selfRecycled = false → ∃ (e : Estimates Arith.xr) (r r' : LMScores XR), out = .returns e ∧ Estimated r e.initial ∧ Estimated r' e.final ∧
        Tells o m0.symbols m0.chars M [0] r ∧
        Tells o m0.symbols m0.chars (M.uses K m0.chars (Ppm.alphabet m0.symbols encode) (spelled 1 [] (text.map (fun c : Nat => (c : Int)) ++ [0]))) [0] r') := by
    have room : ∀ {rs h'}, Server.Reach (env Arith.xr encode fuel orderN orderV) models cfg rs h' →
        (rs.map Request.symbols).sum ≤ (reqs.map Request.symbols).sum + (4 * text.length + 3) →
        1 + (reqs.map Request.symbols).sum + (4 * text.length + 3) ≤ cfgMax (A := Arith.xr) cfg → h'.selfRecycled = false :=
      fun hrs hsum hroom => (C77_room hf hrs (by omega)).1
    have s1 : ((reqs ++ [Request.getLMScores [] 0]).map Request.symbols).sum = (reqs.map Request.symbols).sum := by
      simp [Request.symbols]
    have s2 : (((reqs ++ [Request.getLMScores [] 0]) ++ more).map Request.symbols).sum ≤ (reqs.map Request.symbols).sum + (4 * text.length + 3) := by
      rw [List.map_append, List.sum_append, s1]; omega
    rcases a2 with rfl | ⟨l0, rfl⟩
    · refine ⟨.refused, h1, by simp only [runLearning, a1, ok_bind], room a3 (by rw [s1]; omega), fun hg => ?_⟩
      obtain ⟨_, _, x, _⟩ := a6 hg
      cases x
    · have hsess : h2.selfRecycled = false → ∃ (ctxs' : List (List Int)) (rs : List (LMScores XR)), outl = some rs ∧
          Ready encode fuel orderN orderV K m0 0
            (M.uses K m0.chars (Ppm.alphabet m0.symbols encode) (spelled 1 [] (text.map (fun c : Nat => (c : Int)) ++ [0]))) ctxs' h2 := by
        intro hg
        obtain ⟨m, hkeep⟩ := a4.keep
        have hn0 : NameAt 0 ctxs1 (M.longest ((Ppm.alphabet m0.symbols encode).past [])) h1 0 := by
          have : M.longest ((Ppm.alphabet m0.symbols encode).past []) = [0] := M.longest_self hkeep.grounded.nil hkeep.grounded.start
          rw [this]; exact a4.zero
        obtain ⟨ctxs', rs, r1, r2, _⟩ := a4.session hf hl _ (fun c hc => by obtain ⟨d, _, rfl⟩ := List.mem_map.1 hc; exact Int.natCast_nonneg d)
          (by rw [a5.const.weights, k5]; omega) (by rw [a5.const.max, k4]; exact hmax) hn0 e2 hg
        exact ⟨ctxs', rs, r1, r2⟩
      cases outl with
      | none =>
        refine ⟨.refused, h2, by simp only [runLearning, a1, ok_bind, teach, hloop, Option.map_none], room hr2 s2, fun hg => ?_⟩
        obtain ⟨_, _, x, _⟩ := hsess hg
        cases x
      | some rs =>
        obtain ⟨Mx, ctxsx, _, readyx⟩ := a4.serveAll hf hl _ f1
        have hw2 : h2.weights.length < 2 := by rw [gd2.const.weights, a5.const.weights, k5]; omega
        obtain ⟨out2, h3, ctxs3, c1, c2, c3, c4, c5, c6⟩ := ask hr2 readyx hw2
        have s3 : ((((reqs ++ [Request.getLMScores [] 0]) ++ more) ++ [Request.getLMScores [] 0]).map Request.symbols).sum ≤
            (reqs.map Request.symbols).sum + (4 * text.length + 3) := by
          rw [List.map_append, List.sum_append]; simpa [Request.symbols] using s2
        rcases c2 with rfl | ⟨l2, rfl⟩
        · refine ⟨.refused, h3, by simp only [runLearning, a1, ok_bind, teach, hloop, Option.map_some, c1], room c3 s3, fun hg => ?_⟩
          obtain ⟨_, _, x, _⟩ := c6 hg
          cases x
        · have hw3 : h3.weights.length < 2 := by rw [c5.const.weights]; exact hw2
          obtain ⟨out3, h4, ctxs4, d1, d2, d3, d4, d5, d6⟩ := ask c3 c4 hw3
          have s4 : (((((reqs ++ [Request.getLMScores [] 0]) ++ more) ++ [Request.getLMScores [] 0]) ++ [Request.getLMScores [] 0]).map Request.symbols).sum ≤
              (reqs.map Request.symbols).sum + (4 * text.length + 3) := by
            rw [List.map_append, List.sum_append]; simpa [Request.symbols] using s3
          rcases d2 with rfl | ⟨l3, rfl⟩
          · refine ⟨.refused, h4, by simp only [runLearning, a1, ok_bind, teach, hloop, Option.map_some, c1, d1], room d3 s4, fun hg => ?_⟩
            obtain ⟨_, _, x, _⟩ := d6 hg
            cases x
          · refine ⟨.returns ⟨l0, l3⟩, h4, by simp only [runLearning, a1, ok_bind, teach, hloop, Option.map_some, c1, d1], room d3 s4, fun hg => ?_⟩
            have g3 := ghost_false d5 hg
            have g2 := ghost_false c5 g3
            have g1 := ghost_false gd2 g2
            obtain ⟨l0', r0, q1, q2, q3⟩ := a6 g1
            cases q1
            obtain ⟨ctxsy, _, _, readyy⟩ := hsess g2
            obtain ⟨out2', h3', ctxs3', y1, _, y3, y4, _, _⟩ := ask hr2 readyy hw2
            rw [c1] at y1; cases y1
            obtain ⟨out3', h4', _, z1, _, _, _, _, z6⟩ := ask y3 y4 hw3
            rw [d1] at z1; cases z1
            obtain ⟨l3', r3, w1, w2, w3⟩ := z6 hg
            cases w1
            exact ⟨_, r0, r3, rfl, q2, w2, q3, w3⟩
  obtain ⟨out, h', x1, x2, x3⟩ := hend
  exact ⟨out, h', _, x1, rfl, hlearn, x2, x3⟩

/-- nothing learnt: all symbols are equally probable -/
theorem blank_uniform {alpha beta : ℝ} {V y : Nat} {p : ℝ} (h : Memory.blank.Prob alpha beta V y [0] p) : p = 1 / (V + 1 : ℕ) := by
  have hc : ∀ z : Int, Memory.blank.count [] z = 1 := fun _ => rfl
  cases h with
  | seen _ hs _ =>
    obtain ⟨z, _, hz⟩ := hs
    exact absurd hz (by simp [Memory.blank])
  | unseen _ _ h =>
    cases h with
    | nil => simp [hc]
    | unseen h => exact absurd rfl h
    | seen h => exact absurd rfl h

/-- **C111** A run against a server just started with a vocabulary only: the estimates shown first are the same for all symbols; with a
text of characters of the vocabulary, those shown last are, for each symbol, its share of the different pairs of neighbours in the text
(with one more for each symbol), weighted with `alpha + beta`, and `1 - beta` for the first character of the text. -/
theorem C111_vocabulary (hl : Learner o K Memory.blank m0) (hms : models.head? = some (.ppm m0)) (hs : ∀ m ∈ models, Served encode m) :
    ∃ bound, ∀ fuel, bound ≤ fuel → ∀ orderN orderV, (env Arith.xr encode fuel orderN orderV).Fair →
      ∀ (cfg : HubConfig XR) h0, (cfg.mixture = .interpolation → cfg.weights.length < 2) → cfg.maxStates < 2 ^ 31 →
        initializeModels (env Arith.xr encode fuel orderN orderV) models cfg = .ok (some h0) →
        ∀ text : List Nat, (∀ c ∈ text, c < 0xD800 ∨ 0xE000 ≤ c) → (∀ c ∈ text, 0 < c ∧ 0 < m0.symbols.findLabel (encode c)) →
          4 * text.length + 4 ≤ cfgMax (A := Arith.xr) cfg →
          ∃ (e : Estimates Arith.xr) (h' : Hub Arith.xr (Component Arith.xr)),
            runLearning (env Arith.xr encode fuel orderN orderV) h0 text = .ok (.returns e, h') ∧
            e.initial.map Prod.snd = [] :: m0.symbols.tail.map Prod.snd ∧ e.final.map Prod.snd = [] :: m0.symbols.tail.map Prod.snd ∧
            e.initial.map Prod.fst = (List.range (m0.chars + 1)).map (fun _ => XR.fin (1 / (m0.chars + 1 : ℕ))) ∧
            e.final.map Prod.fst = (List.range (m0.chars + 1)).map fun y => XR.fin
              (Ppm.firstChance (Ppm.effective o.alpha (1/2)) (Ppm.effective o.beta (3/4)) m0.chars
                (text.map fun c : Nat => m0.symbols.findLabel (encode c)) y) := by
  obtain ⟨bound, hb⟩ := C111_run hl hms hs
  refine ⟨bound, fun fuel hfu orderN orderV hf cfg h0 hcfg hmx hi text ht hk hroom => ?_⟩
  obtain ⟨_, M, i1, htaught, hall⟩ := hb fuel hfu orderN orderV hf cfg [] h0 hcfg hmx ⟨h0, hi, rfl⟩
  obtain rfl : M = Memory.blank := by cases htaught; rfl
  have hlab : ∀ c ∈ text, (Ppm.alphabet m0.symbols encode).taught c = some (m0.symbols.findLabel (encode c)) ∧
      (Ppm.alphabet m0.symbols encode).typed c = m0.symbols.findLabel (encode c) := by
    intro c hc
    obtain ⟨k1, k2⟩ := hk c hc
    refine ⟨?_, ?_⟩
    · simp only [Ppm.alphabet]
      rw [if_neg (by omega), if_pos ⟨by omega, by omega⟩]
    · simp only [Ppm.alphabet, Ppm.typedLabel]
      rw [if_pos k2]
  obtain ⟨out, h', M', e1, _, e3, e4, e5⟩ := hall text ht
  have hM := e3 fun c hc => by rw [(hlab c hc).1]; simp
  obtain ⟨e, r, r', rfl, ⟨p1, p2⟩, ⟨q1, q2⟩, ⟨p, p3, _, p4, p5, _⟩, q, q3, _, q4, q5, _⟩ := e5 (e4 (by
    simp only [List.map_nil, List.sum_nil]; omega))
  have hden := Mozolm.System.Learner.dense hl
  refine ⟨e, h', e1, p2.trans p4, q2.trans q4, ?_, ?_⟩
  · rw [p1, p5]
    refine List.map_congr_left fun y hy => ?_
    rw [blank_uniform (p3 y (by have := List.mem_range.1 hy; omega)).2]
  · rw [q1, q5]
    refine List.map_congr_left fun y hy => ?_
    have hp := (q3 y (by have := List.mem_range.1 hy; omega)).2
    rw [hM] at hp
    obtain ⟨b0, b1⟩ := Ppm.effective_range o.beta (d := 3/4) (by norm_num) (by norm_num)
    have := Ppm.blank_prob (a := Ppm.alphabet m0.symbols encode) (label := fun c => m0.symbols.findLabel (encode c)) b0.le b1.le hl.two
      (by simp [Ppm.alphabet]) (cs := text.map fun c : Nat => (c : Int)) (fun s hs => by
        obtain ⟨c, hc, rfl⟩ := List.mem_map.1 hs
        exact ⟨(hlab c hc).1, (hlab c hc).2, (hk c hc).2, hden.find_le _⟩) hp
    rw [this, List.map_map]
    rfl

end
end Mozolm.System
