import Verif.Props.Service
import Verif.Props.SystemPairs
import Verif.Props.SystemUpdate
import Verif.System.ServiceSpec

/-!
# C85, C86: the running service with the component models of the repository
-/

namespace Mozolm.System
open Mozolm.Hub Mozolm.Server

variable {A : Arith} {encode : Int → Str} {models : List (Component A)} {m0 : Bigram.Model} {j : Nat}

/-- The handlers do not fail on this request: without Bayesian history on any; with it, on updates of non-negative
characters at a state that exists. -/
def Handleable (cfg : HubConfig A.C) (h : Hub A (Component A)) : Request → Prop
  | .updateLMScores s cs _ => cfg.bayesianHistoryLength ≤ 0 ∨ (h.valid (toInt32 s) = true ∧ ∀ c ∈ cs, 0 ≤ c)
  | _ => True

/-- **C85** The handlers complete. -/
theorem C85_handlers (hs : ∀ m ∈ models, Served encode m) (hm : 0 < models.length) :
    ∃ bound, ∀ fuel, bound ≤ fuel → ∀ orderN orderV, (env A encode fuel orderN orderV).Fair →
      ∀ cfg reqs h, (cfg.mixture = .interpolation → cfg.weights.length ≤ models.length) →
        Server.Reach (env A encode fuel orderN orderV) models cfg reqs h → ∀ r, Handleable cfg h r →
        ∃ a h', answer (env A encode fuel orderN orderV) h r = .ok (a, h') := by
  obtain ⟨bound, hb⟩ := served_live hs
  obtain ⟨bound', hb'⟩ := C72_calls_complete hs hm
  obtain ⟨bound2, hb2⟩ := C72_service hs hm
  refine ⟨max bound (max bound' bound2), fun fuel hfu orderN orderV hf cfg reqs h hcfg hr r hsafe => ?_⟩
  cases r with
  | getLMScores ctx s =>
    obtain ⟨rep, h', e, _⟩ := (hb2 fuel (by omega) orderN orderV hf cfg reqs h hcfg hr).2 ctx s
    exact ⟨_, _, by simp only [answer, e, ok_bind]; rfl⟩
  | getNextState ctx s =>
    have g := hr.good hf
    obtain ⟨r1, h1, e1, _⟩ := Hub.contextLoop_ok hf g.inv (if toInt32 s < 0 then 0 else toInt32 s) ctx
    have e1' : Hub.contextState (env A encode fuel orderN orderV) h ctx (toInt32 s) = .ok (r1, h1) := e1
    exact ⟨_, _, by simp only [answer, getNextState, e1', ok_bind]; rfl⟩
  | updateLMScores s cs n =>
    have hlive := hb fuel (by omega)
    obtain ⟨calls, hr⟩ := hr.hub
    have hc := closedOn A encode fuel
    have ho := Hub.reach_own hf hc hlive hr
    obtain ⟨w, h1, e1, g1, t1, v1⟩ := walk_ok hf ho.inv (toInt32 s) cs
    obtain ⟨calls1, f1⟩ := walk_calls e1
    have hr1 : Hub.Reach (env A encode fuel orderN orderV) models cfg (calls ++ calls1) h1 := by
      obtain ⟨h0, i0, i1⟩ := hr
      exact ⟨h0, i0, by rw [run_append, i1, ok_bind]; exact f1⟩
    obtain ⟨h2, e2⟩ := hb' fuel (by omega) orderN orderV hf cfg _ h1 hcfg hr1 (.update (toInt32 s) cs n) (fun s cs' n' he => by
      cases he
      exact hsafe.imp_right fun hx => ⟨Good.valid g1 hx.1, hx.2⟩)
    have e2' := e2
    simp only [Hub.step] at e2
    obtain ⟨⟨u, h2'⟩, e3, e4⟩ := bind_ok.1 e2
    have e42 : h2' = h2 := by cases e4; rfl
    subst e42
    have hr2 : Hub.Reach (env A encode fuel orderN orderV) models cfg (calls ++ calls1 ++ [.update (toInt32 s) cs n]) h2' := by
      obtain ⟨h0, i0, i1⟩ := hr1
      exact ⟨h0, i0, by rw [run_append, i1, ok_bind]; simp only [run, e2', ok_bind]⟩
    have ho2 := Hub.reach_own hf hc hlive hr2
    obtain ⟨q1, q2⟩ := reach_weights hf hm hcfg hr2
    obtain ⟨r, h3, e5⟩ := own_fault (orderN := orderN) (orderV := orderV) ho2 q1 q2 w
    cases u with
    | false => exact ⟨_, _, by simp only [answer, updateLMScores, e1, ok_bind, e3, Bool.false_eq_true, if_false]; rfl⟩
    | true =>
      cases r with
      | none => exact ⟨_, _, by simp only [answer, updateLMScores, e1, ok_bind, e3, if_true, e5]; rfl⟩
      | some r => exact ⟨_, _, by simp only [answer, updateLMScores, e1, ok_bind, e3, if_true, e5]; rfl⟩

/-- **C85** In the service with these components, whatever the schedule: when the server has come to rest, every request
that reached it has been handled. -/
theorem C85_service (hs : ∀ m ∈ models, Served encode m) (hm : 0 < models.length) :
    ∃ bound, ∀ fuel, bound ≤ fuel → ∀ orderN orderV, (env A encode fuel orderN orderV).Fair →
      ∀ (cfg : HubConfig A.C) h0 w, (cfg.mixture = .interpolation → cfg.weights.length ≤ models.length) →
        initializeModels (env A encode fuel orderN orderV) models cfg = .ok (some h0) →
        WReach (env A encode fuel orderN orderV) h0 w → (∀ t r, .sent t r ∈ w.log → Handleable cfg w.hub r) →
        AtRest (env A encode fuel orderN orderV) w → ∀ t id, .arrived t id ∈ w.log → ∃ r a, .handled t r a ∈ w.log := by
  obtain ⟨bound, hb⟩ := C85_handlers hs hm
  refine ⟨bound, fun fuel hfu orderN orderV hf cfg h0 w hcfg hi hw hsafe hq t id ha => ?_⟩
  obtain ⟨order, _, hr⟩ := C85_reach hi w hw
  exact C85_all_handled w hw hq (fun t r hsent => hb fuel hfu orderN orderV hf cfg _ _ hcfg hr r (hsafe t r hsent)) t id ha

theorem strings_plus (V : List Int) (reqs : List Request) : ∀ T : Pairs, T.strings V reqs = T.plus V reqs := by
  induction reqs with
  | nil => intro T; funext a b; simp [Pairs.strings, Pairs.plus]
  | cons r rs ih =>
    intro T
    funext a b
    cases r with
    | updateLMScores s cs n =>
      simp only [Pairs.strings, ih, Pairs.plus, Pairs.add, List.map_cons, List.sum_cons, gain]
      omega
    | getNextState ctx s => simp only [Pairs.strings, ih, Pairs.plus, List.map_cons, List.sum_cons, gain]; omega
    | getLMScores ctx s => simp only [Pairs.strings, ih, Pairs.plus, List.map_cons, List.sum_cons, gain]; omega

theorem accounted {A : Arith} {σ : Type} {env : Env A σ} {h0 : Hub A σ} {w : World A σ} {order : List (Turn A.D)}
    (hw : WReach env h0 w) (ho : Explains env h0 order w.log w.hub) : Accounted w.log (order.map fun x => (x.1, x.2.1)) := by
  refine ⟨?_, ?_, ?_⟩
  · simpa [Function.comp_def] using ho.once
  · intro t r hm
    obtain ⟨⟨t', r', a⟩, h1, h2⟩ := List.mem_map.1 hm
    simp only [Prod.mk.injEq] at h2
    obtain ⟨rfl, rfl⟩ := h2
    exact ho.sent _ _ _ h1
  · intro t r a h1 h2
    obtain ⟨r', h3⟩ := ho.got _ _ h2
    rw [hw.winv.sentOne _ _ _ h1 (ho.sent _ _ _ h3)]
    exact List.mem_map.2 ⟨_, h3, rfl⟩

/-- **C86** A bigram component of the running service, with clients that count whole texts: the counts are the initial ones
plus what some of the requests sent add, each at most once, and every one that a client got an answer to. -/
theorem C86_counted_once (hs : ∀ m ∈ models, Served encode m) (hj : models[j]? = some (.bigram m0)) :
    ∃ bound, ∀ fuel, bound ≤ fuel → ∀ orderN orderV, (env A encode fuel orderN orderV).Fair →
      ∀ (cfg : HubConfig A.C) h0 w, j < (cfgWeights (A := A) cfg).length →
        initializeModels (env A encode fuel orderN orderV) models cfg = .ok (some h0) →
        WReach (env A encode fuel orderN orderV) h0 w →
        (∀ t s cs n, .sent t (.updateLMScores s cs n) ∈ w.log → toInt32 s = 0) →
        ∃ done, Accounted w.log done ∧
          (((tableOf m0).plus m0.utf8 (done.map (·.2))).Within m0.utf8 →
            ∃ m : Bigram.Model, w.hub.models[j]? = some (.bigram m) ∧ m.utf8 = m0.utf8 ∧
              ∀ a ∈ m0.utf8, ∀ b ∈ m0.utf8, tableOf m a b = (tableOf m0).plus m0.utf8 (done.map (·.2)) a b) := by
  obtain ⟨bound, hb⟩ := served_live hs
  refine ⟨bound, fun fuel hfu orderN orderV hf cfg h0 w hw hi hr hsent => ?_⟩
  obtain ⟨order, ho, hreach⟩ := C85_reach hi w hr
  obtain ⟨_, T, _, _, k3, k4, _⟩ := tallied_reach hf (hb fuel hfu) hj hw hreach
  have hT := k4 (by
    intro s cs n hm
    obtain ⟨⟨t, r, a⟩, h1, h2⟩ := List.mem_map.1 hm
    simp only at h2
    subst h2
    exact hsent _ _ _ _ (ho.sent _ _ _ h1))
  rw [strings_plus] at hT
  have e : (order.map fun x => (x.1, x.2.1)).map (·.2) = order.map (·.2.1) := by simp [Function.comp_def]
  refine ⟨order.map fun x => (x.1, x.2.1), accounted hr ho, ?_⟩
  rw [e, ← hT]
  intro hin
  obtain ⟨m, k5, k6⟩ := k3.holds hin
  refine ⟨m, k5, k6.vocab, fun a ha b hb => ?_⟩
  have hm := holds_tableOf k6.wf
  rw [k6.vocab] at hm
  obtain ⟨p, hp⟩ := List.mem_iff_getElem?.1 ha
  obtain ⟨q, hq⟩ := List.mem_iff_getElem?.1 hb
  have := (hm.count p q a b hp hq).symm.trans (k6.count p q a b hp hq)
  exact Option.some.inj this

/-- **C86** With the bigram model alone, this is what the next client to ask finds: the shares of those counts. -/
theorem C86_next_reply (hs : ∀ m ∈ models, Served encode m) (hms : models.head? = some (.bigram m0)) :
    ∃ bound, ∀ fuel, bound ≤ fuel → ∀ orderN orderV, (env A encode fuel orderN orderV).Fair →
      ∀ (cfg : HubConfig A.C) h0 w, (cfg.mixture = .interpolation → cfg.weights.length < 2) →
        initializeModels (env A encode fuel orderN orderV) models cfg = .ok (some h0) →
        WReach (env A encode fuel orderN orderV) h0 w →
        (∀ t s cs n, .sent t (.updateLMScores s cs n) ∈ w.log → toInt32 s = 0) →
        ∃ done, Accounted w.log done ∧
          (((tableOf m0).plus m0.utf8 (done.map (·.2))).Within m0.utf8 →
            PairsAsked (env A encode fuel orderN orderV) encode m0.utf8 ((tableOf m0).plus m0.utf8 (done.map (·.2))) w.hub) := by
  obtain ⟨bound, hb⟩ := C84_server hs hms
  refine ⟨bound, fun fuel hfu orderN orderV hf cfg h0 w hcfg hi hr hsent => ?_⟩
  obtain ⟨order, ho, hreach⟩ := C85_reach hi w hr
  obtain ⟨_, T, _, _, k4, k5, _⟩ := hb fuel hfu orderN orderV hf cfg _ _ hcfg hreach
  have hT := k4 (by
    intro s cs n hm
    obtain ⟨⟨t, r, a⟩, h1, h2⟩ := List.mem_map.1 hm
    simp only at h2
    subst h2
    exact hsent _ _ _ _ (ho.sent _ _ _ h1))
  rw [strings_plus] at hT
  have e : (order.map fun x => (x.1, x.2.1)).map (·.2) = order.map (·.2.1) := by simp [Function.comp_def]
  refine ⟨order.map fun x => (x.1, x.2.1), accounted hr ho, ?_⟩
  rw [e, ← hT]
  exact k5

/-- **C86** Asking for the scores after a text, whatever other clients do meanwhile: the reply is made of the initial
counts plus what some of the requests add – each at most once, all that had been acknowledged when the client asked, and
none that was sent after it got the reply. -/
theorem C86_read_your_writes (hs : ∀ m ∈ models, Served encode m) (hms : models.head? = some (.bigram m0)) :
    ∃ bound, ∀ fuel, bound ≤ fuel → ∀ orderN orderV, (env A encode fuel orderN orderV).Fair →
      ∀ (cfg : HubConfig A.C) h0 w, (cfg.mixture = .interpolation → cfg.weights.length < 2) →
        initializeModels (env A encode fuel orderN orderV) models cfg = .ok (some h0) →
        WReach (env A encode fuel orderN orderV) h0 w →
        (∀ t s cs n, .sent t (.updateLMScores s cs n) ∈ w.log → toInt32 s = 0) →
        ∀ t text c x answer, .sent t (.getLMScores (text ++ [c]) x) ∈ w.log → (∀ c' ∈ text ++ [c], 0 ≤ c') → .got t answer ∈ w.log →
          ∃ done : List (Nat × Request), (done.map (·.1)).Nodup ∧ (∀ t' r', (t', r') ∈ done → Before w.log (.sent t' r') (.got t answer)) ∧
            (∀ t' r' a', .sent t' r' ∈ w.log → Before w.log (.got t' a') (.sent t (.getLMScores (text ++ [c]) x)) → (t', r') ∈ done) ∧
            (((tableOf m0).plus m0.utf8 (done.map (·.2))).Within m0.utf8 →
              answer = .scores (.ok (((tableOf m0).plus m0.utf8 (done.map (·.2))).reply A encode m0.utf8 c))) := by
  obtain ⟨bound, hb⟩ := C84_server hs hms
  refine ⟨bound, fun fuel hfu orderN orderV hf cfg h0 w hcfg hi hr hsent t text c x ans h1 hnn h2 => ?_⟩
  obtain ⟨order, ho⟩ := C85_serial w hr
  obtain ⟨r, hm⟩ := ho.got _ _ h2
  have := hr.winv.sentOne _ _ _ (ho.sent _ _ _ hm) h1
  subst this
  obtain ⟨p, q, e⟩ := List.append_of_mem hm
  have hrep := ho.replay
  rw [e] at hrep
  obtain ⟨hub1, hub2, k1, k2, _⟩ := hrep.split
  have hreach : Server.Reach (env A encode fuel orderN orderV) models cfg (p.map (·.2.1)) hub1 := ⟨h0, hi, k1.serveAll⟩
  obtain ⟨_, T, _, _, k4, k5, _⟩ := hb fuel hfu orderN orderV hf cfg _ _ hcfg hreach
  have hT := k4 (by
    intro s cs n hm
    obtain ⟨⟨t, r, a⟩, g1, g2⟩ := List.mem_map.1 hm
    simp only at g2
    subst g2
    exact hsent _ _ _ _ (ho.sent _ _ _ (by rw [e]; exact List.mem_append_left _ g1)))
  rw [strings_plus] at hT
  have hn := ho.once
  rw [e, List.map_append, List.nodup_append] at hn
  have e' : (p.map fun x => (x.1, x.2.1)).map (·.2) = p.map (·.2.1) := by simp [Function.comp_def]
  refine ⟨p.map fun x => (x.1, x.2.1), by simpa [Function.comp_def] using hn.1, fun t' r' hx => ?_, fun t' r' a' g1 g2 => ?_, ?_⟩
  · obtain ⟨⟨t1, r1, a1⟩, g1, g2⟩ := List.mem_map.1 hx
    simp only [Prod.mk.injEq] at g2
    obtain ⟨rfl, rfl⟩ := g2
    obtain ⟨p1, p2, g3⟩ := List.append_of_mem g1
    exact ho.noFuture _ _ a1 t (Request.getLMScores (text ++ [c]) x) ans ⟨p1, p2, q, by rw [e, g3]; simp⟩ h2
  · have hg : .got t' a' ∈ w.log := by
      obtain ⟨l1, l2, l3, g⟩ := g2
      rw [g]; simp
    obtain ⟨r2, g3⟩ := ho.got _ _ hg
    have := hr.winv.sentOne _ _ _ (ho.sent _ _ _ g3) g1
    subst this
    obtain ⟨l1, l2, l3, g4⟩ := ho.realTime _ _ _ _ _ _ g3 hm g2
    -- the place of the question is unique
    have hl : p = l1 ++ (t', r2, a') :: l2 := by
      have hn2 := ho.once
      have g5 : p ++ (t, Request.getLMScores (text ++ [c]) x, ans) :: q =
          (l1 ++ (t', r2, a') :: l2) ++ (t, Request.getLMScores (text ++ [c]) x, ans) :: l3 := by rw [← e, g4]; simp
      have hno : ∀ (u v u' v' : List (Turn A.D)) (z : Turn A.D), z ∉ u → z ∉ u' → u ++ z :: v = u' ++ z :: v' → u = u' := by
        intro u
        induction u with
        | nil =>
          intro v u' v' z _ h2 h3
          cases u' with
          | nil => rfl
          | cons y u' => simp only [List.nil_append, List.cons_append, List.cons.injEq] at h3; exact absurd (by simp [h3.1]) h2
        | cons y u ih =>
          intro v u' v' z h1 h2 h3
          cases u' with
          | nil => simp only [List.nil_append, List.cons_append, List.cons.injEq] at h3; exact absurd (by simp [h3.1]) h1
          | cons y' u' =>
            simp only [List.cons_append, List.cons.injEq] at h3
            simp only [List.mem_cons, not_or] at h1 h2
            rw [h3.1, ih _ _ _ _ h1.2 h2.2 h3.2]
      refine hno _ _ _ _ _ (fun hz => ?_) (fun hz => ?_) g5
      · exact hn.2.2 t (List.mem_map.2 ⟨_, hz, rfl⟩) t (by simp) rfl
      · have hn3 := ho.once
        rw [show order = (l1 ++ (t', r2, a') :: l2) ++ (t, Request.getLMScores (text ++ [c]) x, ans) :: l3 by rw [g4]; simp, List.map_append, List.nodup_append] at hn3
        exact hn3.2.2 t (List.mem_map.2 ⟨_, hz, rfl⟩) t (by simp) rfl
    rw [hl]; simp
  · rw [e', ← hT]
    intro hin
    obtain ⟨⟨rep, h'⟩, g1, g2⟩ := bind_ok.1 k2
    have := k5 hin _ _ hnn _ _ g1
    rw [if_neg (by simp)] at this
    simp only [Except.ok.injEq, Prod.mk.injEq] at g2
    rw [← g2.1, this]
    simp [lastAt]

end Mozolm.System
