import Verif.System.ExampleSpec
import Verif.Props.System
import Verif.Props.History
import Verif.Props.Voices
import Verif.Props.SystemPairs

/-!
# C105: the Java example client
-/

namespace Mozolm.System
open Mozolm.Hub Mozolm.Server

/-! ## The order -/

theorem doubleLe_trans {a b c : XR} (h1 : doubleLe a b) (h2 : doubleLe b c) : doubleLe a c := by
  cases a <;> cases b <;> cases c <;> (simp_all [doubleLe, XR.le]; try linarith)

theorem doubleLe_total (a b : XR) : doubleLe a b ∨ doubleLe b a := by
  cases a <;> cases b <;> simp [doubleLe, XR.le, le_total]

theorem doubleLe_refl (a : XR) : doubleLe a a := by
  cases a <;> simp [doubleLe, XR.le]

theorem doubleLe_notSmaller {a b : XR} (h : doubleLe b a) : NotSmaller a b := by
  unfold NotSmaller
  cases a <;> cases b <;> simp_all [doubleLe, XR.le]

theorem ranked {r : LMScores XR} (hl : r.symbols.length = r.probs.length) : Ranked r ((r.probs.zip r.symbols).mergeSort probCompare) := by
  classical
  have ht : ∀ a b c : XR × Str, probCompare a b = true → probCompare b c = true → probCompare a c = true := by
    simp only [probCompare, decide_eq_true_eq]
    exact fun a b c h1 h2 => doubleLe_trans h2 h1
  have htot : ∀ a b : XR × Str, (probCompare a b || probCompare b a) = true := by
    simp only [probCompare, Bool.or_eq_true, decide_eq_true_eq]
    exact fun a b => doubleLe_total _ _
  refine ⟨List.mergeSort_perm _ _, hl.symm, ?_, fun p inst => ?_⟩
  · exact (List.pairwise_mergeSort ht htot _).imp fun h => doubleLe_notSmaller (by simpa [probCompare] using h)
  · have hsub : ((r.probs.zip r.symbols).filter fun c => c.1 == p).Sublist ((r.probs.zip r.symbols).mergeSort probCompare) := by
      refine List.sublist_mergeSort ht htot ?_ List.filter_sublist
      rw [List.pairwise_iff_forall_sublist]
      intro a b hab
      have ha := List.mem_filter.1 (hab.subset (List.mem_cons_self))
      have hb := List.mem_filter.1 (hab.subset (List.mem_cons_of_mem _ List.mem_cons_self))
      have e : a.1 = b.1 := by rw [eq_of_beq ha.2, eq_of_beq hb.2]
      simp [probCompare, e, doubleLe_refl]
    have h2 : ((r.probs.zip r.symbols).filter fun c => c.1 == p).Sublist (((r.probs.zip r.symbols).mergeSort probCompare).filter fun c => c.1 == p) := by
      have := hsub.filter (fun c => c.1 == p)
      rwa [List.filter_filter, show (fun a : XR × Str => (a.1 == p) && (a.1 == p)) = fun c => c.1 == p from funext fun a => Bool.and_self _] at this
    refine (h2.eq_of_length ?_).symm
    exact ((List.mergeSort_perm (r.probs.zip r.symbols) probCompare).filter _).length_eq.symm

/-! ## Replies have as many symbols as probabilities -/

section
variable {A : Arith} {encode : Int → Str} {fuel : Nat} {orderN : List (Int × Nat) → List (Int × Nat)} {orderV : List (Str × A.C) → List (Str × A.C)}
  {models : List (Component A)} {cfg : HubConfig A.C} {h h' : Hub A (Component A)}

theorem extract_sizes {s : Int} {r : LMScores A.D} (ho : Hub.Own (live encode fuel) ok h)
    (he : Hub.extractLMScores (env A encode fuel orderN orderV) h s = .ok (some r, h')) : r.symbols.length = r.probs.length := by
  unfold extractLMScores at he
  split at he
  · cases he
  · cases hst : h.states[s.toNat]? with
    | none => rw [hst] at he; cases he
    | some st =>
      rw [hst] at he
      by_cases hw : h.weights.length < 2
      · simp only [hw, if_true] at he
        cases hms : h.models with
        | nil => rw [hms] at he; cases he
        | cons m1 ms =>
          rw [hms] at he
          simp only [Except.ok.injEq, Prod.mk.injEq] at he
          obtain ⟨a, b⟩ := ho.at hst 0 m1 (by rw [hms]; rfl)
          have he1 : (extract encode fuel m1 (st.modelState 0)).1 = some r := he.1
          by_cases hov : m1 = .overflow
          · subst hov; cases he1
          · obtain ⟨r', e1, e2⟩ := extract_answers a b hov
            rw [Nat.add_zero] at e1
            rw [e1] at he1; cases he1
            exact e2.symm
      · simp only [hw, if_false] at he
        obtain ⟨ws, e1, e2⟩ := bind_ok.1 he
        obtain ⟨⟨y, ms⟩, e3, e4⟩ := bind_ok.1 e2
        cases y with
        | none => cases e4
        | some y =>
          obtain ⟨mixed, nrm⟩ := y
          simp only [Except.ok.injEq, Prod.mk.injEq, Option.some.injEq] at e4
          rw [← e4.1]
          cases hv : (env A encode fuel orderN orderV).orderV mixed <;> simp [extractMixture, hv]

theorem reply_sizes (hf : (env A encode fuel orderN orderV).Fair) (hl : ∀ m ∈ models, live encode fuel m) {reqs : List Request}
    (hr : Server.Reach (env A encode fuel orderN orderV) models cfg reqs h) {ctx : List Int} {x : Int} {r : LMScores A.D}
    (he : getLMScores (env A encode fuel orderN orderV) h ctx x = .ok (.ok r, h')) : r.symbols.length = r.probs.length := by
  obtain ⟨calls, hc⟩ := hr.hub
  obtain ⟨⟨k, h1⟩, e1, e2⟩ := bind_ok.1 he
  obtain ⟨⟨z, h2⟩, e3, e4⟩ := bind_ok.1 e2
  cases z with
  | none => cases e4
  | some z =>
    cases e4
    have hr1 : Hub.Reach (env A encode fuel orderN orderV) models cfg (calls ++ [.context ctx (toInt32 x)]) h1 := by
      obtain ⟨h0, i0, i1⟩ := hc
      exact ⟨h0, i0, by rw [Server.run_append, i1, ok_bind]; simp only [run, step, e1, ok_bind]⟩
    exact extract_sizes (Hub.reach_own hf (closedOn A encode fuel) hl hr1) e3

end

/-! ## The example -/

theorem logTop_eq (n : Nat) : ∀ (cs : List (XR × Str)) acc, logTop n cs acc =
    if n ≤ cs.length then .returns (acc ++ (cs.take n).map fun c => (c, c.2 == [114])) else .outOfBounds (acc ++ cs.map fun c => (c, c.2 == [114])) := by
  induction n with
  | zero => intro cs acc; simp [logTop]
  | succ n ih =>
    intro cs acc
    cases cs with
    | nil => simp [logTop]
    | cons c cs =>
      simp only [logTop, ih, List.length_cons, Nat.add_le_add_iff_right, List.take_succ_cons, List.map_cons, List.append_assoc, List.singleton_append]

variable {encode : Int → Str} {models : List (Component Arith.xr)}

/-- **C105** The candidates of the example for a context are the symbols of the server's reply to that context from the start
state, the most probable first. They are obtained after any requests, without an exception (unless a count of a bigram model
has run over). -/
theorem C105_candidates (hs : ∀ m ∈ models, Served encode m) (hm : 0 < models.length) :
    ∃ bound, ∀ fuel, bound ≤ fuel → ∀ orderN orderV, (env Arith.xr encode fuel orderN orderV).Fair →
      ∀ (cfg : HubConfig XR) reqs h, (cfg.mixture = .interpolation → cfg.weights.length ≤ models.length) →
        Server.Reach (env Arith.xr encode fuel orderN orderV) models cfg reqs h → (∀ m ∈ h.models, m ≠ .overflow) → ∀ context,
        ∃ r cands h', getLMScores (env Arith.xr encode fuel orderN orderV) h context 0 = .ok (.ok r, h') ∧
          getTopCandidates (env Arith.xr encode fuel orderN orderV) h context = .ok (.returns cands, h') ∧ Ranked r cands := by
  obtain ⟨b1, hb1⟩ := C72_service hs hm
  obtain ⟨b2, hb2⟩ := served_live hs
  refine ⟨max b1 b2, fun fuel hfu orderN orderV hf cfg reqs h hcfg hr hov context => ?_⟩
  have hpos := (hr.good hf).inv.pos
  obtain ⟨rep, h', e, k⟩ := (hb1 fuel (by omega) orderN orderV hf cfg reqs h hcfg hr).2 context (-1)
  obtain ⟨r, rfl⟩ := k hov (.inr ⟨by decide, by decide, by omega⟩)
  have hl := reply_sizes hf (hb2 fuel (by omega)) hr e
  have e0 : getLMScores (env Arith.xr encode fuel orderN orderV) h context 0 = .ok (.ok r, h') := e
  refine ⟨r, _, h', e0, ?_, ranked hl⟩
  simp only [getTopCandidates, e, ok_bind]
  rw [if_neg (by simpa using hl)]

/-- **C105** When nothing was learnt the candidates are those of a server just started. -/
theorem C105_fresh (hs : ∀ m ∈ models, Served encode m) :
    ∃ bound, ∀ fuel, bound ≤ fuel → ∀ orderN orderV, (env Arith.xr encode fuel orderN orderV).Fair →
      ∀ (cfg : HubConfig XR) reqs h0 h, NothingLearnt models reqs →
        initializeModels (env Arith.xr encode fuel orderN orderV) models cfg = .ok (some h0) →
        serveAll (env Arith.xr encode fuel orderN orderV) h0 reqs = .ok h → ∀ context, (∀ c ∈ context, 0 ≤ c) →
        1 + (reqs.map Server.Request.symbols).sum + context.length ≤ cfgMax (A := Arith.xr) cfg →
        (getTopCandidates (env Arith.xr encode fuel orderN orderV) h context).map Prod.fst =
          (getTopCandidates (env Arith.xr encode fuel orderN orderV) h0 context).map Prod.fst := by
  obtain ⟨b, hb⟩ := C73_as_fresh (A := Arith.xr) hs
  refine ⟨b, fun fuel hfu orderN orderV hf cfg reqs h0 h hq e0 e1 context hc hroom => ?_⟩
  have h1 := hb fuel hfu orderN orderV hf cfg reqs h0 h hq e0 e1 context hc (-1) (by decide) (by decide) hroom
  have h2 := hb fuel hfu orderN orderV hf cfg [] h0 h0 (.inr fun _ _ _ h => by cases h) e0 rfl context hc (-1) (by decide) (by decide)
    (by simp only [List.map_nil, List.sum_nil]; omega)
  rw [← h2] at h1
  unfold getTopCandidates
  revert h1
  rcases getLMScores (env Arith.xr encode fuel orderN orderV) h context (-1) with f | ⟨x, hx⟩ <;>
    rcases getLMScores (env Arith.xr encode fuel orderN orderV) h0 context (-1) with g | ⟨y, hy⟩
  · intro h; simpa [Except.map] using h
  · intro h; simp [Except.map] at h
  · intro h; simp [Except.map] at h
  · intro h
    simp only [Except.map, Except.ok.injEq] at h
    subst h
    simp only [ok_bind]
    cases x with
    | invalidArgument => rfl
    | ok r =>
      by_cases hl : r.symbols.length ≠ r.probs.length
      · simp only [if_pos hl, Except.map]
      · simp only [if_neg hl, Except.map]

/-- **C105** The example logs the five most probable candidates, each with whether it is "r", if there are five symbols; if there
are fewer it logs them all and then ends with an exception. -/
theorem C105_run {σ : Type} {env : Env Arith.xr σ} {h h' : Hub Arith.xr σ} {cands : List (XR × Str)}
    (he : getTopCandidates env h helloWo = .ok (.returns cands, h')) :
    runExample env h = .ok (if 5 ≤ cands.length then .returns ((cands.take 5).map fun c => (c, c.2 == [114]))
      else .outOfBounds (cands.map fun c => (c, c.2 == [114])), h') := by
  simp only [runExample, he, ok_bind, logTop_eq, List.nil_append]

/-- **C105** With a bigram model of `V` characters (that the example always shows five candidates is false): whatever was counted
before, it logs five of them if `V` has five characters, and otherwise all of `V` and then ends with an exception. -/
theorem C105_bigram {m0 : Bigram.Model} (hs : ∀ m ∈ models, Served encode m) (hms : models.head? = some (.bigram m0)) :
    ∃ bound, ∀ fuel, bound ≤ fuel → ∀ orderN orderV, (env Arith.xr encode fuel orderN orderV).Fair →
      ∀ (cfg : HubConfig XR) reqs h, (cfg.mixture = .interpolation → cfg.weights.length < 2) →
        Server.Reach (env Arith.xr encode fuel orderN orderV) models cfg reqs h →
        ∃ (h0 : Hub Arith.xr (Component Arith.xr)) (T : Pairs),
          initializeModels (env Arith.xr encode fuel orderN orderV) models cfg = .ok (some h0) ∧
          Counted (env Arith.xr encode fuel orderN orderV) m0.utf8 h0 (tableOf m0) reqs h T ∧
          (T.Within m0.utf8 → ∃ cands lines h', Ranked (T.reply Arith.xr encode m0.utf8 111) cands ∧
            lines = (cands.take 5).map (fun c => (c, c.2 == [114])) ∧
            lines.length = min 5 m0.utf8.length ∧
            runExample (env Arith.xr encode fuel orderN orderV) h = .ok (if 5 ≤ m0.utf8.length then .returns lines else .outOfBounds lines, h')) := by
  obtain ⟨b1, hb1⟩ := C84_server (A := Arith.xr) (m0 := m0) hs hms
  have hm : 0 < models.length := by cases models with
    | nil => cases hms
    | cons => simp
  obtain ⟨b2, hb2⟩ := C72_service hs hm
  refine ⟨max b1 b2, fun fuel hfu orderN orderV hf cfg reqs h hcfg hr => ?_⟩
  obtain ⟨h0, T, k1, k2, _, k3, _⟩ := hb1 fuel (by omega) orderN orderV hf cfg reqs h hcfg hr
  refine ⟨h0, T, k1, k2, fun hw => ?_⟩
  obtain ⟨rep, h', e, _⟩ := (hb2 fuel (by omega) orderN orderV hf cfg reqs h (fun hx => by have := hcfg hx; omega) hr).2 helloWo (-1)
  have hrep := k3 hw helloWo (-1) (by decide) rep h' e
  rw [if_neg (by simp [helloWo]), show lastAt h (-1) helloWo = 111 from rfl] at hrep
  subst hrep
  have hl : (T.reply Arith.xr encode m0.utf8 111).symbols.length = (T.reply Arith.xr encode m0.utf8 111).probs.length := by simp [Pairs.reply]
  have hrk := ranked hl
  have hc : getTopCandidates (env Arith.xr encode fuel orderN orderV) h helloWo =
      .ok (.returns (((T.reply Arith.xr encode m0.utf8 111).probs.zip (T.reply Arith.xr encode m0.utf8 111).symbols).mergeSort probCompare), h') := by
    simp only [getTopCandidates, e, ok_bind]
    rw [if_neg (by simpa using hl)]
  have hlen : (((T.reply Arith.xr encode m0.utf8 111).probs.zip (T.reply Arith.xr encode m0.utf8 111).symbols).mergeSort probCompare).length = m0.utf8.length := by
    rw [hrk.all.length_eq, List.length_zip]
    simp [Pairs.reply]
  refine ⟨_, _, h', hrk, rfl, by rw [List.length_map, List.length_take, hlen], ?_⟩
  rw [C105_run hc, hlen]
  split
  · rfl
  · rw [List.take_of_length_le (by rw [hlen]; omega)]

end Mozolm.System
