import Verif.System.Session
import Verif.Props.SystemMemory
import Verif.Server.Calls

/-!
# C78: teaching a text character by character

The client of `System/Session.lean` in front of a server with a PPM model that learns.
-/

namespace Mozolm.System
open Mozolm.Hub Mozolm.Server
open Mozolm.Ppm (Keeps Memory Learner spelled)
variable {encode : Int → Str} {fuel : Nat} {o : Ppm.Options XR} {K : Nat} {M M0 : Memory} {ctxs : List (List Int)} {m0 : Ppm.Model Arith.xr}
  {orderN : List (Int × Nat) → List (Int × Nat)} {orderV : List (Str × XR) → List (Str × XR)}
  {models : List (Component Arith.xr)} {cfg : HubConfig XR} {reqs : List Request}
  {h h' : Hub Arith.xr (Component Arith.xr)} {j : Nat} {n : Int}

/-! ## The session as a history of requests -/

section
variable {A : Arith} {σ : Type} {env : Env A σ}

theorem serveAll_append (as bs : List Request) : ∀ h : Hub A σ,
    Server.serveAll env h (as ++ bs) = (Server.serveAll env h as).bind fun h => Server.serveAll env h bs := by
  induction as with
  | nil => intro h; rfl
  | cons a as ih =>
    intro h
    simp only [List.cons_append, Server.serveAll]
    cases e : Server.serve env h a with
    | error f => rfl
    | ok h1 => simp only [ok_bind]; exact ih h1

theorem reach_append {models : List σ} {cfg : HubConfig A.C} {reqs more : List Request} {h h' : Hub A σ}
    (hr : Server.Reach env models cfg reqs h) (he : Server.serveAll env h more = .ok h') :
    Server.Reach env models cfg (reqs ++ more) h' := by
  obtain ⟨h0, i0, i1⟩ := hr
  exact ⟨h0, i0, by rw [serveAll_append, i1]; exact he⟩

theorem updateModel_requests (n : Int) (text : List Int) : ∀ {h h' : Hub A σ} {s : Int} {out : Option (List (LMScores A.D))},
    updateModel env n h s text = .ok (out, h') →
    ∃ more, Server.serveAll env h more = .ok h' ∧ (more.map Request.symbols).sum ≤ 4 * text.length + 3 := by
  induction text with
  | nil =>
    intro h h' s out he
    obtain ⟨⟨u, h1⟩, e1, e2⟩ := bind_ok.1 he
    refine ⟨[.updateLMScores s [0] n], ?_, by simp [Request.symbols]⟩
    have : h1 = h' := by cases u <;> (cases e2; rfl)
    subst this
    simp only [Server.serveAll, Server.serve, e1, ok_bind]
  | cons c text ih =>
    intro h h' s out he
    obtain ⟨⟨u, h1⟩, e1, e2⟩ := bind_ok.1 he
    cases u with
    | invalidArgument =>
      refine ⟨[.updateLMScores s [c] n], ?_, by simp [Request.symbols]⟩
      cases e2
      simp only [Server.serveAll, Server.serve, e1, ok_bind]
    | ok r =>
      simp only [withReply] at e2
      obtain ⟨⟨v, h2⟩, e3, e4⟩ := bind_ok.1 e2
      cases v with
      | invalidArgument =>
        refine ⟨[.updateLMScores s [c] n, .getNextState [c] s], ?_, by simp [Request.symbols]; omega⟩
        cases e4
        simp only [Server.serveAll, Server.serve, e1, ok_bind, e3]
      | ok s' =>
        simp only at e4
        obtain ⟨⟨w, h3⟩, e5, e6⟩ := bind_ok.1 e4
        cases e6
        obtain ⟨more, f1, f2⟩ := ih e5
        refine ⟨.updateLMScores s [c] n :: .getNextState [c] s :: more, ?_, ?_⟩
        · simp only [Server.serveAll, Server.serve, e1, ok_bind, e3]; exact f1
        · simp only [List.map_cons, List.sum_cons, Request.symbols, List.length_cons, List.length_nil]; omega

theorem serveAll_good (hf : env.Fair) {h h' : Hub A σ} (hi : Inv h) {more : List Request}
    (he : Server.serveAll env h more = .ok h') : Good env h h' := by
  obtain ⟨calls, f1⟩ := serveAll_calls he
  exact run_good hf hi f1

end

/-! ## What the session does -/

theorem Ready.keep (hr : Ready encode fuel orderN orderV K m0 j M ctxs h) : ∃ m, Keeps encode K M ctxs m0 m := by
  obtain ⟨m, _, hk⟩ := hr.holds
  exact ⟨m, hk⟩

/-- One update of a session. -/
theorem Ready.turn (hf : (env Arith.xr encode fuel orderN orderV).Fair) (hl : Learner o K M0 m0)
    (hr : Ready encode fuel orderN orderV K m0 0 M ctxs h) (hw : h.weights.length < 2) {x : Int} {s : Nat} (hx : toInt32 x = s)
    {c : Int} (hc : 0 ≤ c) {past : List Int} (hn : NameAt 0 ctxs (M.longest ((Ppm.alphabet m0.symbols encode).past past)) h s)
    {rep : Reply (LMScores XR)} (he : updateLMScores (env Arith.xr encode fuel orderN orderV) h x [c] n = .ok (rep, h'))
    (hg : h'.selfRecycled = false) :
    ∃ (M' : Memory) (ctxs' : List (List Int)) (r : LMScores XR) (k : Nat),
      M' = M.use K m0.chars (Ppm.alphabet m0.symbols encode) (.learn past [c] n) ∧ Ready encode fuel orderN orderV K m0 0 M' ctxs' h' ∧
      h'.weights.length < 2 ∧ IsPath h' s [c] k ∧
      NameAt 0 ctxs' (M'.longest ((Ppm.alphabet m0.symbols encode).past (past ++ [c]))) h' k ∧ rep = .ok r ∧
      Tells o m0.symbols m0.chars M' (M'.longest ((Ppm.alphabet m0.symbols encode).past (past ++ [c]))) r := by
  obtain ⟨M', new, hM, hr', hw', hall, hrep⟩ := hr.update hf hl.alpha hl.beta hl.initial hl.adaptive hx
    (cs := [c]) (by simpa using hc) (.inl (by simp)) hn he hg
  obtain ⟨k, hp, hk⟩ := hall [c] [] (by simp)
  obtain ⟨r, hrr, ht⟩ := hrep rfl hw hl.totals
  obtain ⟨m, hkeep⟩ := hr.keep
  obtain ⟨m', hkeep'⟩ := hr'.keep
  have key : M'.longest (((([c] : List Int).map (Ppm.typedLabel m0.symbols encode)).reverse) ++
      M.longest ((Ppm.alphabet m0.symbols encode).past past)) = M'.longest ((Ppm.alphabet m0.symbols encode).past (past ++ [c])) := by
    rw [Ppm.past_snoc]
    refine Memory.learnt_longest hkeep.grounded hkeep'.grounded (fun d z hd => ?_) (Ppm.typedLabel_ne _ _ _)
    rw [hM] at hd
    split at hd
    · exact Memory.learn_count _ _ _ hd
    · exact .inl hd
  rw [key] at hk ht
  exact ⟨M', _, r, k, hM, hr', by rw [hw']; exact hw, hp, hk, hrr, ht⟩

theorem Ready.session (hf : (env Arith.xr encode fuel orderN orderV).Fair) (hl : Learner o K M0 m0) (text : List Int) (ht : ∀ c ∈ text, 0 ≤ c) :
    ∀ {h : Hub Arith.xr (Component Arith.xr)} {M : Memory} {ctxs : List (List Int)} {s : Nat} {past : List Int}
      {out : Option (List (LMScores XR))},
    Ready encode fuel orderN orderV K m0 0 M ctxs h → h.weights.length < 2 → h.max < 2 ^ 31 →
    NameAt 0 ctxs (M.longest ((Ppm.alphabet m0.symbols encode).past past)) h s →
    updateModel (env Arith.xr encode fuel orderN orderV) n h s text = .ok (out, h') → h'.selfRecycled = false →
    ∃ (ctxs' : List (List Int)) (rs : List (LMScores XR)), out = some rs ∧
      Ready encode fuel orderN orderV K m0 0
        (M.uses K m0.chars (Ppm.alphabet m0.symbols encode) (spelled n past (text ++ [0]))) ctxs' h' ∧
      Heard o K (Ppm.alphabet m0.symbols encode) m0.symbols m0.chars M n past (text ++ [0]) rs := by
  induction text with
  | nil =>
    intro h M ctxs s past out hr hw hmax hn he hg
    obtain ⟨⟨u, h1⟩, e1, e2⟩ := bind_ok.1 he
    have hh : h1 = h' := by cases u <;> (cases e2; rfl)
    subst hh
    have hlt : s < h.states.length := by
      obtain ⟨st, q, a1, _⟩ := hn
      exact lt_of_getElem?_eq_some a1
    have hle := hr.own.inv.le
    have h32 : toInt32 (s : Int) = s := toInt32_of_range (by omega) (by omega)
    obtain ⟨M', ctxs', r, k, hM, hr', _, _, _, rfl, htell⟩ := hr.turn hf hl hw h32 (by omega) hn e1 hg
    simp only [withReply, Except.ok.injEq, Prod.mk.injEq, and_true] at e2
    subst e2
    subst hM
    refine ⟨ctxs', [r], rfl, hr', rfl, fun i r' hi => ?_⟩
    cases i with
    | zero => cases hi; exact htell
    | succ i => simp at hi
  | cons c text ih =>
    intro h M ctxs s past out hr hw hmax hn he hg
    obtain ⟨⟨u, h1⟩, e1, e2⟩ := bind_ok.1 he
    have hlt : s < h.states.length := by
      obtain ⟨st, q, a1, _⟩ := hn
      exact lt_of_getElem?_eq_some a1
    have hle := hr.own.inv.le
    have h32 : toInt32 (s : Int) = s := toInt32_of_range (by omega) (by omega)
    have hg1 : Server.serveAll (env Arith.xr encode fuel orderN orderV) h [.updateLMScores s [c] n] = .ok h1 := by
      simp only [Server.serveAll, Server.serve, e1, ok_bind]
    have gd1 := serveAll_good hf hr.own.inv hg1
    have hg2 : h1.selfRecycled = false := by
      cases u with
      | invalidArgument => cases e2; exact hg
      | ok r =>
        simp only [withReply] at e2
        obtain ⟨⟨v, h2⟩, e3, e4⟩ := bind_ok.1 e2
        have gd2 := serveAll_good hf gd1.inv
          (show Server.serveAll (env Arith.xr encode fuel orderN orderV) h1 [.getNextState [c] s] = .ok h2 by
            simp only [Server.serveAll, Server.serve, e3, ok_bind])
        refine ghost_false gd2 ?_
        cases v with
        | invalidArgument => cases e4; exact hg
        | ok s' =>
          simp only at e4
          obtain ⟨⟨w, h3⟩, e5, e6⟩ := bind_ok.1 e4
          cases e6
          obtain ⟨more, f1, _⟩ := updateModel_requests n text e5
          exact ghost_false (serveAll_good hf gd2.inv f1) hg
    obtain ⟨M', ctxs', r, k, hM, hr', hw', hp, hk, rfl, htell⟩ := hr.turn hf hl hw h32 (ht c (by simp)) hn e1 hg2
    simp only [withReply] at e2
    have hnext : getNextState (env Arith.xr encode fuel orderN orderV) h1 [c] s = .ok (.ok (k : Int), h1) := by
      simp only [getNextState, contextState, h32, if_neg (show ¬ ((s : Int) < 0) by omega), contextLoop_path hp, ok_bind]
    rw [hnext] at e2
    simp only [ok_bind] at e2
    obtain ⟨⟨w, h3⟩, e5, e6⟩ := bind_ok.1 e2
    cases e6
    obtain ⟨ctxs'', rs, rfl, l2, l3, l4⟩ := ih (fun d hd => ht d (by simp [hd])) hr' hw' (by rw [gd1.const.max]; exact hmax) hk e5 hg
    subst hM
    refine ⟨ctxs'', r :: rs, rfl, l2, by simp [l3], fun i r' hi => ?_⟩
    cases i with
    | zero =>
      simp only [List.getElem?_cons_zero, Option.some.injEq] at hi
      subst hi
      exact htell
    | succ i =>
      rw [List.getElem?_cons_succ] at hi
      have := l4 i r' hi
      rw [List.append_assoc] at this
      exact this

/-- A session completes. -/
theorem session_completes {A : Arith} {models : List (Component A)} (hs : ∀ m ∈ models, Served encode m) (hm : 0 < models.length) :
    ∃ bound, ∀ fuel, bound ≤ fuel → ∀ orderN orderV, (env A encode fuel orderN orderV).Fair →
      ∀ cfg, (cfg.mixture = .interpolation → cfg.weights.length ≤ models.length) → cfgMax (A := A) cfg < 2 ^ 31 →
        ∀ (n : Int) (text : List Int), (∀ c ∈ text, 0 ≤ c) → ∀ reqs h (s : Int), Server.Reach (env A encode fuel orderN orderV) models cfg reqs h →
        0 ≤ s → s < h.states.length →
        ∃ out h', updateModel (env A encode fuel orderN orderV) n h s text = .ok (out, h') := by
  obtain ⟨bound, hb⟩ := C72_update_service hs hm
  refine ⟨bound, fun fuel hfu orderN orderV hf cfg hcfg hmax n text => ?_⟩
  induction text with
  | nil =>
    intro _ reqs h s hr hs0 hs1
    have hle := (hr.good hf).inv.le
    have hmx := (hr.good hf).const.max
    have hmx : h.max = cfgMax (A := A) cfg := hmx
    obtain ⟨rep, h1, e1, _⟩ := hb fuel hfu orderN orderV hf cfg reqs h hcfg hr s hs0 (by omega) hs1 [0] (by simp) n
    cases rep with
    | ok r => exact ⟨_, _, by simp only [updateModel, e1, ok_bind, withReply]; rfl⟩
    | invalidArgument => exact ⟨_, _, by simp only [updateModel, e1, ok_bind, withReply]; rfl⟩
  | cons c text ih =>
    intro ht reqs h s hr hs0 hs1
    have hle := (hr.good hf).inv.le
    have hmx : h.max = cfgMax (A := A) cfg := (hr.good hf).const.max
    obtain ⟨rep, h1, e1, _⟩ := hb fuel hfu orderN orderV hf cfg reqs h hcfg hr s hs0 (by omega) hs1 [c] (by simpa using ht c (by simp)) n
    cases rep with
    | invalidArgument => exact ⟨_, _, by simp only [updateModel, e1, ok_bind, withReply]; rfl⟩
    | ok r =>
      have hr1 := reach_append hr (show Server.serveAll (env A encode fuel orderN orderV) h [.updateLMScores s [c] n] = .ok h1 by
        simp only [Server.serveAll, Server.serve, e1, ok_bind])
      have h32 : toInt32 s = s := toInt32_of_range (by omega) (by omega)
      obtain ⟨s', h2, e2, g2, v2, _⟩ := contextLoop_ok hf (hr1.good hf).inv s [c]
      have e2' : getNextState (env A encode fuel orderN orderV) h1 [c] s = .ok (.ok s', h2) := by
        simp only [getNextState, contextState, h32, if_neg (show ¬ s < 0 by omega), e2, ok_bind]
      have hr2 := reach_append hr1 (show Server.serveAll (env A encode fuel orderN orderV) h1 [.getNextState [c] s] = .ok h2 by
        simp only [Server.serveAll, Server.serve, e2', ok_bind])
      obtain ⟨v3, v4⟩ := v2 (by simp)
      obtain ⟨out, h3, e3⟩ := ih (fun d hd => ht d (by simp [hd])) _ h2 s' hr2 v3 v4
      exact ⟨_, _, by simp only [updateModel, e1, ok_bind, withReply, e2', e3]; rfl⟩

/-- There is room for a history of requests that carry fewer symbols (three times counted for updates) than the state
buffer has places. -/
theorem C77_room {A : Arith} {σ : Type} {env : Env A σ} (hf : env.Fair) {models : List σ} {cfg : HubConfig A.C} {reqs : List Request}
    {h : Hub A σ} (hr : Server.Reach env models cfg reqs h) (hfew : 1 + (reqs.map Request.symbols).sum ≤ cfgMax cfg) :
    h.selfRecycled = false ∧ h.states.length ≤ 1 + (reqs.map Request.symbols).sum ∧ h.max = cfgMax cfg := by
  have hmx : h.max = cfgMax cfg := (hr.good hf).const.max
  obtain ⟨calls, hc, _, hsum⟩ := hr.hub'
  obtain ⟨q1, q2⟩ := C05_room_suffices hf hc (by unfold cfgMax at hfew; split at hfew <;> split <;> omega)
  exact ⟨q1, by omega, hmx⟩

theorem learn_spelled (hl : Learner o K M0 m0) (hr : Ready encode fuel orderN orderV K m0 j M ctxs h) {n : Int} (hn : 0 < n)
    {text : List Int} (ht : ∀ c ∈ text, (Ppm.alphabet m0.symbols encode).taught c ≠ none) :
    M.uses K m0.chars (Ppm.alphabet m0.symbols encode) (spelled n [] text) =
      counted K (Ppm.alphabet m0.symbols encode) M [0] text n := by
  obtain ⟨m, hk⟩ := hr.keep
  have h0 : M.longest ((Ppm.alphabet m0.symbols encode).past []) = [0] := M.longest_self hk.grounded.nil hk.grounded.start
  rw [counted, if_pos hn, ← Memory.learn_spelled (fun M => ∃ ctxs m, Keeps encode K M ctxs m0 m) (fun M ⟨_, _, hk⟩ => hk.grounded) hn
    (fun M past c ⟨ctxs, m, hk⟩ => ?_) (fun c => Ppm.typedLabel_ne _ _ _) text ht M [] ⟨ctxs, m, hk⟩, h0]
  obtain ⟨q, hq⟩ := List.mem_iff_getElem?.mp ((hk.holds.contexts _).mpr (M.longest_spec hk.grounded.nil past).1)
  obtain ⟨m', new, _, k2⟩ := hk.learn hl.alpha hl.beta hl.initial hl.adaptive hq [c] n
  rw [if_pos hn] at k2
  exact ⟨_, m', k2⟩

/-- **C78** A client teaches a text one character at a time, asking for the next state after each, and then the end of
the string, as the Java example does. The session completes; if no state took its own place in the state buffer, in
particular if there is room, no request is refused, each reply is that of the longest context known then of the text
so far, and afterwards the server has learnt each character after the text before it; for a text of known characters
that is what it learns from a single update request with the whole text. -/
theorem C78_session (hl : Learner o K M0 m0) (hms : models.head? = some (.ppm m0)) (hs : ∀ m ∈ models, Served encode m) :
    ∃ bound, ∀ fuel, bound ≤ fuel → ∀ orderN orderV, (env Arith.xr encode fuel orderN orderV).Fair →
      ∀ (cfg : HubConfig XR) reqs h, (cfg.mixture = .interpolation → cfg.weights.length < 2) → cfg.maxStates < 2 ^ 31 →
        Server.Reach (env Arith.xr encode fuel orderN orderV) models cfg reqs h →
        ∃ (h0 : Hub Arith.xr (Component Arith.xr)) (M : Memory),
          initializeModels (env Arith.xr encode fuel orderN orderV) models cfg = .ok (some h0) ∧
          Taught (env Arith.xr encode fuel orderN orderV) K (Ppm.alphabet m0.symbols encode) h0 M0 reqs h M ∧
          ∀ (text : List Int) (n : Int), (∀ c ∈ text, 0 ≤ c) →
            ∃ (out : Option (List (LMScores XR))) (h' : Hub Arith.xr (Component Arith.xr)) (M' : Memory),
              updateModel (env Arith.xr encode fuel orderN orderV) n h 0 text = .ok (out, h') ∧
              M' = M.uses K m0.chars (Ppm.alphabet m0.symbols encode) (spelled n [] (text ++ [0])) ∧
              (0 < n → (∀ c ∈ text, (Ppm.alphabet m0.symbols encode).taught c ≠ none) →
                M' = counted K (Ppm.alphabet m0.symbols encode) M [0] (text ++ [0]) n) ∧
              (1 + (reqs.map Request.symbols).sum + (4 * text.length + 3) ≤ cfgMax (A := Arith.xr) cfg → h'.selfRecycled = false) ∧
              (h'.selfRecycled = false → ∃ rs, out = some rs ∧
                Heard o K (Ppm.alphabet m0.symbols encode) m0.symbols m0.chars M n [] (text ++ [0]) rs ∧
                AsksWell (env Arith.xr encode fuel orderN orderV) o (Ppm.alphabet m0.symbols encode) m0.symbols m0.chars M' h' ∧
                TeachesWell (env Arith.xr encode fuel orderN orderV) o K (Ppm.alphabet m0.symbols encode) m0.symbols m0.chars M' h') := by
  obtain ⟨bound, hb⟩ := served_live hs
  have hm : 0 < models.length := by
    cases models with
    | nil => cases hms
    | cons => simp
  obtain ⟨bound', hb'⟩ := session_completes hs hm
  refine ⟨max bound bound', fun fuel hfu orderN orderV hf cfg reqs h hcfg hmx hr => ?_⟩
  have hw := weights_single hcfg
  have hmax : cfgMax (A := Arith.xr) cfg < 2 ^ 31 := by unfold cfgMax; split <;> omega
  obtain ⟨h0, M, ctxs, k1, k2, k3, k4, k5⟩ := ready_reach hf hl (hb fuel (by omega)) (j := 0) (by rw [← hms, List.head?_eq_getElem?]) (by omega) hr
  refine ⟨h0, M, k1, k2, fun text n ht => ?_⟩
  obtain ⟨out, h', e⟩ := hb' fuel (by omega) orderN orderV hf cfg (fun x => by have := hcfg x; omega) hmax n text ht reqs h 0 hr (by omega)
    (by have := k3.own.inv.pos; omega)
  refine ⟨out, h', _, e, rfl, fun hn hk => ?_, fun hroom => ?_, fun hg => ?_⟩
  · refine learn_spelled hl k3 hn fun c hc => ?_
    rcases List.mem_append.1 hc with hc | hc
    · exact hk c hc
    · rw [List.mem_singleton.1 hc]; simp [Ppm.alphabet]
  · obtain ⟨more, f1, f2⟩ := updateModel_requests n text e
    refine (C77_room hf (reach_append hr f1) ?_).1
    rw [List.map_append, List.sum_append]
    omega
  · obtain ⟨m, hkeep⟩ := k3.keep
    have hn0 : NameAt 0 ctxs (M.longest ((Ppm.alphabet m0.symbols encode).past [])) h 0 := by
      have : M.longest ((Ppm.alphabet m0.symbols encode).past []) = [0] := M.longest_self hkeep.grounded.nil hkeep.grounded.start
      rw [this]; exact k3.zero
    obtain ⟨ctxs', rs, r1, r2, r3⟩ := k3.session hf hl text ht (by rw [k5]; omega) (by rw [k4]; exact hmax) hn0 e hg
    obtain ⟨more, f1, _⟩ := updateModel_requests n text e
    have gd := serveAll_good hf k3.own.inv f1
    have hw' : h'.weights.length < 2 := by rw [gd.const.weights, k5]; omega
    exact ⟨rs, r1, r3, r2.asks hf hl hw', r2.teaches hf hl hw' (by rw [gd.const.max, k4]; exact hmax)⟩

end Mozolm.System
