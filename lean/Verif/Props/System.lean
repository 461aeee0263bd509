import Verif.System.Live
import Verif.Hub.Budget
import Verif.Props.Hub
import Verif.Props.Server
import Verif.Props.PpmDemo
import Verif.Props.WordScores

/-!
# C72: the hub over the component models of the repository
-/

namespace Mozolm.System
variable {A : Arith} {encode : Int → Str} {fuel : Nat}

/-- A component as its `Read` leaves it: the bigram model from files it accepts; the PPM model from a
vocabulary with at least one character or a well-formed automaton; the n-gram models from an accepted
automaton whose arcs lead to states and whose backoff arcs do not go in circles. -/
inductive Served (encode : Int → Str) : Component A → Prop
  | bigram {v c : Bigram.FileArg} {m : Bigram.Model} : Bigram.read v c = .ok (some m) → Served encode (.bigram m)
  | ppm {Ok : A.C → Prop} {o : Ppm.Options A.D} {m : Ppm.Model A} :
      Ppm.CountLaws A Ok (Ppm.initParameters A o).beta → Ppm.Initial A Ok o m → Served encode (.ppm m)
  | char {src : NGram.Source A.C} {m : NGram.Model A.C} : NGram.read A src = .ok (some m) →
      NGram.Closed m.fst → NGram.Acyclic m.fst → Served encode (.char m)
  | word {m : Word.Model A.C} : Word.Usable m → Word.Encodes encode m.static.base.symbols m.static.base.oov →
      Served encode (.word m)

theorem read_unigram {src : NGram.Source A.C} {m : NGram.Model A.C} (h : NGram.read A src = .ok (some m))
    (hc : NGram.Closed m.fst) : 0 ≤ m.unigram ∧ m.unigram < m.fst.states.length := by
  have hfst : ∀ f, src.fst = some f → f.start < f.states.length := by
    intro f hf
    have : m.fst = f := by
      simp only [NGram.read, hf] at h
      split at h
      · cases h
      · split at h
        · cases h
        · obtain ⟨bo, _, h⟩ := bind_ok.1 h
          split at h
          · cases h
          · split at h
            · cases h
            · cases h; rfl
    rw [← this]; exact hc.1
  obtain ⟨_, _, _, _, _, _, _, ⟨w, t, h1, h2⟩ | ⟨_, h2⟩⟩ := (NGram.C60_read hfst m).1 h
  · have := h1.lt hc; omega
  · have := hc.1; omega

theorem Served.live {m : Component A} (h : Served encode m) : ∃ bound, ∀ fuel, bound ≤ fuel → live encode fuel m := by
  cases h with
  | bigram h => exact ⟨0, fun _ _ => Bigram.read_wf h⟩
  | ppm hl h =>
    obtain ⟨ord, V, u, hi⟩ := h.inv hl
    exact ⟨0, fun _ _ => ⟨_, ord, V, u, hi⟩⟩
  | char h hc ha =>
    obtain ⟨bound, hb⟩ := Word.enough_of_acyclic ha
    exact ⟨bound, fun fuel hf => ⟨hc, hb fuel hf, read_unigram h hc⟩⟩
  | @word m h he =>
    obtain ⟨bound, hb⟩ := Word.enough_of_acyclic h.acyclic
    obtain ⟨u, hu, hf, hB, hr, hi0⟩ := h.toLoaded.fit
    obtain ⟨hmax, hc0⟩ := h.toLoaded.cache h.labels h.hiOrder
    exact ⟨bound, fun fuel hf => ⟨m, h, he, hb fuel hf, rfl, hi0, hc0⟩⟩

theorem served_live {models : List (Component A)} (hs : ∀ m ∈ models, Served encode m) :
    ∃ bound, ∀ fuel, bound ≤ fuel → ∀ m ∈ models, live encode fuel m := by
  induction models with
  | nil => exact ⟨0, fun _ _ m hm => by cases hm⟩
  | cons m ms ih =>
    obtain ⟨b1, h1⟩ := (hs m (by simp)).live
    obtain ⟨b2, h2⟩ := ih (fun x hx => hs x (by simp [hx]))
    refine ⟨max b1 b2, fun fuel hf x hx => ?_⟩
    rcases List.mem_cons.1 hx with rfl | hx
    · exact h1 fuel (by omega)
    · exact h2 fuel (by omega) x hx

section
variable {orderN : List (Int × Nat) → List (Int × Nat)} {orderV : List (Str × A.C) → List (Str × A.C)}
  {models : List (Component A)} {cfg : Hub.HubConfig A.C} {calls : List Hub.Call} {h h' : Hub.Hub A (Component A)}

theorem guard_scores : ((env A encode fuel orderN orderV).guard (live encode fuel) ok).ScoresOK := by
  classical
  intro m s r hr
  simp only [Hub.Env.guard, Hub.LMOps.guard] at hr
  split at hr
  · next hk =>
    by_cases hov : m = .overflow
    · subst hov; simp [env, ops, extract] at hr
    · obtain ⟨r', e1, e2⟩ := extract_answers hk.1 hk.2 hov
      have : (extract encode fuel m s).1 = some r := hr
      rw [e1] at this
      cases this
      exact e2
  · cases hr

theorem own_fault (ho : Hub.Own (live encode fuel) ok h)
    (hm : 0 < h.models.length) (hw : h.weights.length ≤ h.models.length) (s : Int) :
    ∃ r h', Hub.extractLMScores (env A encode fuel orderN orderV) h s = .ok (r, h') := by
  rw [ho.extract]
  exact Hub.extract_ok guard_scores ho.inv hw hm s

theorem own_answers (ho : Hub.Own (live encode fuel) ok h) (hov : ∀ m ∈ h.models, m ≠ .overflow) {s : Int}
    (hv : h.valid s = true) {r : Option (LMScores A.D)}
    (he : Hub.extractLMScores (env A encode fuel orderN orderV) h s = .ok (r, h')) : r ≠ none := by
  have hacc : (env A encode fuel orderN orderV).toLMOps.Accepts
      (fun m s => live encode fuel m ∧ ok m s ∧ m ≠ .overflow) := by
    refine ⟨fun m s hm => ?_, fun m s cs n hm => update_accepted hm.1 hm.2.1 cs n⟩
    obtain ⟨r, e, _⟩ := extract_answers hm.1 hm.2.1 hm.2.2
    show (extract encode fuel m s).1 ≠ none
    rw [e]; simp
  refine Hub.extract_accepts hacc (fun i st hst j m hm => ?_) hv he
  have hmem := List.mem_of_getElem? hm
  have := ho.works m hmem
  exact ⟨this, ho.all i st hst j m hm this, hov m hmem⟩

theorem reach_weights (hf : (env A encode fuel orderN orderV).Fair) (hm : 0 < models.length)
    (hcfg : cfg.mixture = .interpolation → cfg.weights.length ≤ models.length)
    (hr : Hub.Reach (env A encode fuel orderN orderV) models cfg calls h) :
    0 < h.models.length ∧ h.weights.length ≤ h.models.length := by
  have g := Hub.reach_good hf hr
  have hml : h.models.length = models.length := g.const.models.length_eq.symm
  refine ⟨by omega, ?_⟩
  rw [g.const.weights, hml]
  show (Hub.cfgWeights cfg).length ≤ _
  unfold Hub.cfgWeights
  split
  · next hx => rw [Hub.normalizeWeights_length]; exact hcfg hx.1
  · simp only [List.length_singleton]; omega

end

/-- **C72** Whatever calls are made on a hub over loaded component models, no component is ever made to
do something undefined, to throw, or to run for ever – except that the counts of a bigram model may leave
the range of `int64_t` (`overflow`). -/
theorem C72_components_never_fail {models : List (Component A)} (hs : ∀ m ∈ models, Served encode m) :
    ∃ bound, ∀ fuel, bound ≤ fuel → ∀ orderN orderV, (env A encode fuel orderN orderV).Fair →
      ∀ cfg calls h, Hub.Reach (env A encode fuel orderN orderV) models cfg calls h →
        ∀ m ∈ h.models, ∀ f, m ≠ .crashed f := by
  obtain ⟨bound, hb⟩ := served_live hs
  refine ⟨bound, fun fuel hfu orderN orderV hf cfg calls h hr m hm f he => ?_⟩
  have ho := Hub.reach_own hf (closedOn A encode fuel) (hb fuel hfu) hr
  have := ho.works m hm
  rw [he] at this
  exact this

/-- **C72** The next call completes too: any call of `NextState`, `ContextState` or `ExtractLMScores`, and any
update if there is no Bayesian history or the state exists and the symbols are not negative. -/
theorem C72_calls_complete {models : List (Component A)} (hs : ∀ m ∈ models, Served encode m)
    (hm : 0 < models.length) :
    ∃ bound, ∀ fuel, bound ≤ fuel → ∀ orderN orderV, (env A encode fuel orderN orderV).Fair →
      ∀ cfg calls h, (cfg.mixture = .interpolation → cfg.weights.length ≤ models.length) →
        Hub.Reach (env A encode fuel orderN orderV) models cfg calls h →
        ∀ call, (∀ s cs n, call = .update s cs n →
          cfg.bayesianHistoryLength ≤ 0 ∨ (h.valid s = true ∧ ∀ c ∈ cs, 0 ≤ c)) →
        ∃ h', Hub.step (env A encode fuel orderN orderV) h call = .ok h' := by
  obtain ⟨bound, hb⟩ := served_live hs
  refine ⟨bound, fun fuel hfu orderN orderV hf cfg calls h hcfg hr call hsafe => ?_⟩
  have hc := closedOn A encode fuel
  have ho := Hub.reach_own hf hc (hb fuel hfu) hr
  have hr' := (Hub.reach_guard hf hc (hb fuel hfu) cfg calls h).1 hr
  rw [ho.step hf hc]
  exact Hub.C01_no_fault hf.guard guard_scores hm hcfg hr' call hsafe

/-- **C72** `ExtractLMScores` then answers at every existing state (unless a bigram count overflowed). -/
theorem C72_answers {models : List (Component A)} (hs : ∀ m ∈ models, Served encode m) (hm : 0 < models.length) :
    ∃ bound, ∀ fuel, bound ≤ fuel → ∀ orderN orderV, (env A encode fuel orderN orderV).Fair →
      ∀ cfg calls h, (cfg.mixture = .interpolation → cfg.weights.length ≤ models.length) →
        Hub.Reach (env A encode fuel orderN orderV) models cfg calls h → (∀ m ∈ h.models, m ≠ .overflow) →
        ∀ s, h.valid s = true → ∃ r h', Hub.extractLMScores (env A encode fuel orderN orderV) h s = .ok (some r, h') := by
  obtain ⟨bound, hb⟩ := served_live hs
  refine ⟨bound, fun fuel hfu orderN orderV hf cfg calls h hcfg hr hov s hv => ?_⟩
  have ho := Hub.reach_own hf (closedOn A encode fuel) (hb fuel hfu) hr
  obtain ⟨h1, h2⟩ := reach_weights hf hm hcfg hr
  obtain ⟨r, h', e⟩ := own_fault ho h1 h2 s
  have := own_answers ho hov hv e
  cases r with
  | none => exact absurd rfl this
  | some r => exact ⟨r, h', e⟩

/-! ## Overflow -/

/-- All counts of the bigram models are at most `k`. -/
def CountsWithin (k : Int) : Component A → Prop
  | .bigram m => ∀ row ∈ m.counts, ∀ c ∈ row, c ≤ k
  | .overflow => False
  | _ => True

/-- How many observations an update reports at most. -/
def observations (cs : List Int) (n : Int) : Int := if n ≤ 0 then 0 else n * cs.length

theorem budget (A : Arith) (encode : Int → Str) (fuel : Nat) :
    ((ops A encode fuel).guard (live encode fuel) ok).Budget CountsWithin observations Bigram.maxInt64 := by
  classical
  refine ⟨?_, ?_, ?_, ?_, ?_, ?_⟩
  · intro k k' m hk h
    cases m <;> simp only [CountsWithin] at h ⊢
    exact fun row hr c hc => Int.le_trans (h row hr c hc) hk
  · intro cs n
    unfold observations
    split
    · exact Int.le_refl _
    · exact Int.mul_nonneg (by omega) (by omega)
  · intro k m s c h
    simp only [Hub.LMOps.guard]
    split
    · next hk =>
      cases m with
      | ppm m => simp only [ops, next, settle]; split <;> trivial
      | char m => simp only [ops, next, settle]; split <;> trivial
      | word m => simp only [ops, next, settle]; split <;> trivial
      | _ => exact h
    · exact h
  · intro k m s h
    simp only [Hub.LMOps.guard]
    split
    · next hk =>
      cases m with
      | bigram m =>
        obtain ⟨r, e, _⟩ := bigram_extract hk.1 A encode s
        simp only [ops, extract, e, settle]; exact h
      | ppm m => simp only [ops, extract, settle]; split <;> trivial
      | char m => simp only [ops, extract, settle]; split <;> trivial
      | word m => simp only [ops, extract, settle]; split <;> trivial
      | _ => exact h
    · exact h
  · intro k m s c h
    simp only [Hub.LMOps.guard]
    split
    · next hk =>
      cases m with
      | bigram m =>
        obtain ⟨r, e⟩ := bigram_score hk.1 A s c
        simp only [ops, symScore, e, settle]; exact h
      | ppm m => simp only [ops, symScore, settle]; split <;> trivial
      | char m => simp only [ops, symScore, settle]; split <;> trivial
      | word m => simp only [ops, symScore, settle]; split <;> trivial
      | _ => exact h
    · exact h
  · intro k m s cs n h hlim
    have hnn : 0 ≤ observations cs n := by
      unfold observations
      split
      · exact Int.le_refl _
      · exact Int.mul_nonneg (by omega) (by omega)
    simp only [Hub.LMOps.guard]
    split
    · next hk =>
      cases m with
      | bigram m =>
        have hwf : Bigram.WF m := hk.1
        simp only [ops, update, Bigram.updateLMCounts]
        by_cases hn : n ≤ 0
        · rw [if_pos hn]
          simp only [CountsWithin] at h ⊢
          exact fun row hr c hc => by have := h row hr c hc; omega
        · rw [if_neg hn]
          obtain ⟨h1, h2⟩ := Bigram.updateLoop_spec (cs := cs) hwf (hwf.fix_lt s) (n := n) (by omega)
          have hob : observations cs n = n * cs.length := by unfold observations; rw [if_neg hn]
          have hcount : ∀ a b, n * ((Bigram.moves m.utf8 (m.fix s) cs).count (a, b) : Nat) ≤ n * cs.length := by
            intro a b
            refine Int.mul_le_mul_of_nonneg_left ?_ (by omega)
            have := List.count_le_length (a := (a, b)) (l := Bigram.moves m.utf8 (m.fix s) cs)
            have := moves_length m.utf8 cs (m.fix s)
            omega
          have hle : ∀ a b x, m.count a b = some x → x ≤ k := by
            intro a b x hx
            unfold Bigram.Model.count at hx
            cases hr : m.counts[a]? with
            | none => rw [hr] at hx; cases hx
            | some row =>
              rw [hr] at hx
              exact h row (List.mem_of_getElem? hr) x (List.mem_of_getElem? hx)
          obtain ⟨m', e⟩ := h2 (fun a b x hx => by
            have := hle a b x hx; have := hcount a b; omega)
          obtain ⟨w', u', v', c'⟩ := h1 m' e
          simp only [e, ok_bind, CountsWithin]
          intro row hr c hc
          obtain ⟨i, hi⟩ := List.getElem?_of_mem hr
          obtain ⟨j, hj⟩ := List.getElem?_of_mem hc
          have hx : m'.count i j = some c := by unfold Bigram.Model.count; rw [hi]; exact hj
          rw [c' i j] at hx
          cases hy : m.count i j with
          | none => rw [hy] at hx; cases hx
          | some y =>
            rw [hy] at hx
            simp only [Option.map_some, Option.some.injEq] at hx
            have := hle i j y hy
            have := hcount i j
            omega
      | ppm m => simp only [ops, update, settle]; split <;> trivial
      | overflow => exact h
      | _ => trivial
    · next hk =>
      cases m with
      | bigram m =>
        simp only [CountsWithin] at h ⊢
        exact fun row hr c hc => by have := h row hr c hc; omega
      | overflow => exact h
      | _ => trivial

/-- **C72** No count overflows before the largest initial count and the observations reported by the updates
together exceed 2^63 - 1. -/
theorem C72_no_overflow {models : List (Component A)} (hs : ∀ m ∈ models, Served encode m) {k : Int}
    (hk : ∀ m, .bigram m ∈ models → ∀ row ∈ m.counts, ∀ c ∈ row, c ≤ k) :
    ∃ bound, ∀ fuel, bound ≤ fuel → ∀ orderN orderV, (env A encode fuel orderN orderV).Fair →
      ∀ cfg calls h, Hub.Reach (env A encode fuel orderN orderV) models cfg calls h →
        k + Hub.spent observations calls ≤ 2 ^ 63 - 1 → ∀ m ∈ h.models, m ≠ .overflow := by
  obtain ⟨bound, hb⟩ := served_live hs
  refine ⟨bound, fun fuel hfu orderN orderV hf cfg calls h hr hsp m hm he => ?_⟩
  have hc := closedOn A encode fuel
  have hr' := (Hub.reach_guard hf hc (hb fuel hfu) cfg calls h).1 hr
  obtain ⟨h0, e1, e2⟩ := hr'
  rw [Hub.initialize_eq hf.guard] at e1
  split at e1
  · cases e1
  · cases e1
    have hbud : ((env A encode fuel orderN orderV).guard (live encode fuel) ok).toLMOps.Budget
      CountsWithin observations Bigram.maxInt64 := budget A encode fuel
    have := hbud.run hf.guard (Hub.initial_inv _ _ _ _ (Hub.cfgMax_ge cfg)) (k := k) (calls := calls) (h' := h)
      (fun x hx => ?_) (by rw [show Bigram.maxInt64 = 2 ^ 63 - 1 from rfl]; exact hsp) e2 m hm
    · rw [he] at this; exact this
    · have hx : x ∈ models := hx
      cases hs x hx with
      | bigram hread => exact hk _ hx
      | _ => trivial

/-! ## The service -/

theorem no_overflow_query {m m' : Component A} (h : Hub.Touch (ops A encode fuel) m m') (hm : m ≠ .overflow) :
    m' ≠ .overflow := by
  have key : ∀ (α β : Type) (d : β) (r : Except Fault α) (k : α → β × Component A), (∀ a, (k a).2 ≠ .overflow) →
      (settle d r k).2 ≠ .overflow := by
    intro α β d r k hk
    unfold settle
    split
    · exact hk _
    · simp
  induction h with
  | refl => exact hm
  | @next m' s c _ ih => cases m' <;> first | exact absurd rfl ih | exact key _ _ _ _ _ (by simp) | simp [ops, next]
  | @extract m' s _ ih =>
    cases m' <;> first | exact absurd rfl ih | exact key _ _ _ _ _ (by simp) | simp [ops, extract]
  | @score m' s c _ ih =>
    cases m' <;> first | exact absurd rfl ih | exact key _ _ _ _ _ (by simp) | simp [ops, symScore]

/-- **C72** Behind the request handlers: after any requests no component has failed, and a request for the
scores is answered – at an existing 32-bit state id, or with any context at all – unless a bigram count
overflowed. -/
theorem C72_service {models : List (Component A)} (hs : ∀ m ∈ models, Served encode m) (hm : 0 < models.length) :
    ∃ bound, ∀ fuel, bound ≤ fuel → ∀ orderN orderV, (env A encode fuel orderN orderV).Fair →
      ∀ cfg reqs h, (cfg.mixture = .interpolation → cfg.weights.length ≤ models.length) →
        Server.Reach (env A encode fuel orderN orderV) models cfg reqs h →
        (∀ m ∈ h.models, ∀ f, m ≠ .crashed f) ∧
        ∀ ctx x, ∃ rep h', Server.getLMScores (env A encode fuel orderN orderV) h ctx x = .ok (rep, h') ∧
          ((∀ m ∈ h.models, m ≠ .overflow) → ctx ≠ [] ∨ (-2 ^ 31 ≤ x ∧ x < 2 ^ 31 ∧ x < h.states.length) →
            ∃ r, rep = .ok r) := by
  obtain ⟨bound, hb⟩ := served_live hs
  refine ⟨bound, fun fuel hfu orderN orderV hf cfg reqs h hcfg hr => ?_⟩
  obtain ⟨calls, hr⟩ := hr.hub
  have hc := closedOn A encode fuel
  have ho := Hub.reach_own hf hc (hb fuel hfu) hr
  obtain ⟨hm1, hw1⟩ := reach_weights hf hm hcfg hr
  refine ⟨fun m hm f he => by have := ho.works m hm; rw [he] at this; exact this, fun ctx x => ?_⟩
  obtain ⟨r1, h1, e1, g1, v1, w1⟩ := Hub.contextLoop_ok hf ho.inv (if Server.toInt32 x < 0 then 0 else Server.toInt32 x) ctx
  have e1' : Hub.contextState (env A encode fuel orderN orderV) h ctx (Server.toInt32 x) = .ok (r1, h1) := e1
  have ho1 : Hub.Own (live encode fuel) ok h1 :=
    ho.run_own hf hc (cs := [.context ctx (Server.toInt32 x)]) (by simp only [Hub.run, Hub.step, e1', ok_bind])
  have hl1 : h1.models.length = h.models.length := g1.const.models.length_eq.symm
  obtain ⟨r2, h2, e2⟩ := own_fault (orderN := orderN) (orderV := orderV) ho1 (by omega) (by rw [g1.const.weights, hl1]; exact hw1) r1
  cases r2 with
  | some r =>
    exact ⟨.ok r, h2, by simp only [Server.getLMScores, e1', ok_bind, e2], fun _ _ => ⟨r, rfl⟩⟩
  | none =>
    refine ⟨.invalidArgument, h2, by simp only [Server.getLMScores, e1', ok_bind, e2], ?_⟩
    intro hov hctx
    have ht := Hub.contextLoop_touches hf ho.inv e1
    refine absurd rfl (own_answers ho1 (fun m hm => ?_) ?_ e2)
    · obtain ⟨j, hj⟩ := List.mem_iff_getElem?.1 hm
      obtain ⟨m0, hj0, ht⟩ := Hub.Pointwise.get' ht hj
      exact no_overflow_query ht (hov m0 (List.mem_of_getElem? hj0))
    · rw [Server.valid_iff]
      by_cases hn : ctx = []
      · obtain ⟨hx0, hx1, hx2⟩ := hctx.resolve_left (fun h => h hn)
        subst hn
        simp only [Hub.contextLoop, Except.ok.injEq, Prod.mk.injEq] at e1
        obtain ⟨rfl, rfl⟩ := e1
        rw [Server.toInt32_of_range (by omega) (by omega)]
        have := ho.inv.pos
        split <;> omega
      · exact v1 hn

/-! ## Components meeting the hypotheses -/

/-- a stand-in for `EncodeUnicodeChar` -/
def demoEncode : Int → Str := fun c => if c < 0 then [] else [c.toNat]

set_option maxRecDepth 20000 in
/-- One component of each kind. -/
theorem demo_served : ∃ models : List (Component Arith.xr), models.length = 4 ∧ (∀ m ∈ models, Served demoEncode m) ∧
    (∀ m, .bigram m ∈ models → ∀ row ∈ m.counts, ∀ c ∈ row, c ≤ 1) ∧
    ∃ b p c w, models = [.bigram b, .ppm p, .char c, .word w] := by
  obtain ⟨p, hp, _⟩ := Ppm.Demo.fresh
  obtain ⟨w, hw, hb, _⟩ := Word.demoR_scored
  have hbig : ∃ b, Bigram.read .absent .absent = .ok (some b) ∧ ∀ row ∈ b.counts, ∀ c ∈ row, c ≤ 1 :=
    ⟨_, rfl, by intro row hr c hc; rw [List.eq_of_mem_replicate hr] at hc; rw [List.eq_of_mem_replicate hc]⟩
  obtain ⟨b, hb1, hb2⟩ := hbig
  refine ⟨[.bigram b, .ppm p, .char Word.demoBaseR, .word w], rfl, ?_, ?_, b, p, _, w, rfl⟩
  · intro m hm
    simp only [List.mem_cons, List.not_mem_nil, or_false] at hm
    rcases hm with rfl | rfl | rfl | rfl
    · exact .bigram hb1
    · exact .ppm (Ok := Ppm.OkR) (o := Ppm.Demo.opts) (Ppm.laws_of Ppm.Demo.opts Ppm.Demo.alpha_ok Ppm.Demo.beta_ok) hp
    · exact .char (src := Word.demoSourceR) (by rfl) Word.demoR_closed Word.demoR_acyclic
    · exact .word hw.usable (by rw [hb]; exact Word.demo_encodes)
  · intro m hm
    simp only [List.mem_cons, Component.bigram.injEq, List.not_mem_nil, or_false, reduceCtorEq] at hm
    subst hm
    exact hb2

/-- C72: a hub over these, with Bayesian history, after a query and an update -/
example : ∃ (models : List (Component Arith.xr)) (fuel : Nat) (cfg : Hub.HubConfig XR) (h : Hub.Hub Arith.xr (Component Arith.xr)),
    models.length = 4 ∧ (∀ m ∈ models, Served demoEncode m) ∧ 0 < cfg.bayesianHistoryLength ∧
    Hub.Reach (env Arith.xr demoEncode fuel id id) models cfg [.next 0 97, .update 0 [97, 98] 3] h ∧
    (∀ m ∈ h.models, m ≠ .overflow) := by
  obtain ⟨models, hl, hs, hk, _⟩ := demo_served
  obtain ⟨b1, hb1⟩ := C72_calls_complete hs (by omega)
  obtain ⟨b2, hb2⟩ := C72_no_overflow hs hk
  have hf : (env Arith.xr demoEncode (max b1 b2) id id).Fair := ⟨fun _ => .refl _, fun _ => .refl _⟩
  let cfg : Hub.HubConfig XR :=
    { mixture := .interpolation, weights := [.fin 0, .fin 0, .fin 0, .fin 0], bayesianHistoryLength := 2, maxStates := 10 }
  have hcfg : cfg.mixture = .interpolation → cfg.weights.length ≤ models.length := fun _ => by rw [hl]; decide
  obtain ⟨h0, hr0⟩ : ∃ h0, Hub.Reach (env Arith.xr demoEncode (max b1 b2) id id) models cfg [] h0 :=
    ⟨_, _, by rw [Hub.initialize_eq hf, if_neg (by decide)], rfl⟩
  obtain ⟨h1, e1⟩ := hb1 _ (by omega) _ _ hf cfg [] h0 hcfg hr0 (.next 0 97) (fun _ _ _ h => by cases h)
  have hr1 : Hub.Reach (env Arith.xr demoEncode (max b1 b2) id id) models cfg [.next 0 97] h1 := by
    obtain ⟨x, i0, i1⟩ := hr0
    cases i1
    exact ⟨_, i0, by simp only [Hub.run, e1, ok_bind]⟩
  have hv : h1.valid 0 = true := by
    have := (Hub.reach_good hf hr1).inv.pos
    rw [Server.valid_iff]; omega
  obtain ⟨h2, e2⟩ := hb1 _ (by omega) _ _ hf cfg [.next 0 97] h1 hcfg hr1 (.update 0 [97, 98] 3) (fun s cs n h => by
    cases h; exact Or.inr ⟨hv, by decide⟩)
  have hr2 : Hub.Reach (env Arith.xr demoEncode (max b1 b2) id id) models cfg [.next 0 97, .update 0 [97, 98] 3] h2 := by
    obtain ⟨x, i0, i1⟩ := hr0
    cases i1
    exact ⟨_, i0, by simp only [Hub.run, e1, e2, ok_bind]⟩
  exact ⟨models, _, cfg, h2, hl, hs, by decide, hr2, hb2 _ (by omega) _ _ hf cfg _ h2 hr2 (by decide)⟩

end Mozolm.System
