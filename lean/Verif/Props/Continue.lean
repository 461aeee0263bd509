import Verif.Props.Directory
import Verif.Props.History

/-!
# C99: without learning, the reply at a state is the reply of a fresh server to the whole text

The text of a state id is its entry in the directory of `Server/DirectorySpec.lean`.
-/

namespace Mozolm.Hub
variable {A : Arith} {σ : Type} {env : Env A σ}

/-- A text of the directory is shorter than the directory. -/
theorem Indexed.longest {h : Hub A σ} {ts : List (List Int)} (hx : Indexed h ts) {u : List Int} (hu : u ∈ ts) : u.length + 1 ≤ ts.length := by
  have hnd : ((List.range (u.length + 1)).map u.take).Nodup := by
    rw [List.nodup_map_iff_inj_on List.nodup_range]
    intro a ha b hb e
    have := congrArg List.length e
    simp only [List.length_take, List.mem_range] at this ha hb
    omega
  have hsub : (List.range (u.length + 1)).map u.take ⊆ ts := by
    intro t ht
    obtain ⟨k, _, rfl⟩ := List.mem_map.1 ht
    exact hx.stem (u.drop k) (by rw [List.take_append_drop]; exact hu)
  simpa using (hnd.subperm hsub).length_le

/-- Asking again for the state of a text of the directory. -/
theorem Indexed.asked {h : Hub A σ} {ts : List (List Int)} (hx : Indexed h ts) {u : List Int} {k : Nat} (hk : ts[k]? = some u) :
    contextState env h u 0 = .ok ((k : Int), h) :=
  contextLoop_path (s := 0) (hx.path u (s := 0) (t := []) hx.root (by simpa using hk))

theorem visits_chars (cs : List Int) (hcs : ∀ c ∈ cs, 0 ≤ c) : ∀ {ts : List (List Int)} {t : List Int}, (∀ c ∈ t, 0 ≤ c) → (∀ u ∈ ts, ∀ c ∈ u, 0 ≤ c) →
    ∀ u ∈ visits ts t cs, ∀ c ∈ u, 0 ≤ c := by
  induction cs with
  | nil => intro ts t _ h; exact h
  | cons d cs ih =>
    intro ts t ht h
    have htd : ∀ c ∈ t ++ [d], 0 ≤ c := by
      intro c hc
      rcases List.mem_append.1 hc with h1 | h1
      · exact ht c h1
      · rw [List.mem_singleton.1 h1]; exact hcs d (by simp)
    refine ih (fun c hc => hcs c (by simp [hc])) htd fun u hu => ?_
    unfold visit at hu
    split at hu
    · exact h u hu
    · rcases List.mem_append.1 hu with h1 | h1
      · exact h u h1
      · rw [List.mem_singleton.1 h1]; exact htd

theorem sourceText_chars {ts : List (List Int)} (h : ∀ u ∈ ts, ∀ c ∈ u, 0 ≤ c) (s : Int) : ∀ c ∈ sourceText ts s, 0 ≤ c := by
  unfold sourceText
  split
  · simp
  · cases hk : ts[s.toNat]? with
    | none => simp
    | some u => exact h u (List.mem_of_getElem? hk)

end Mozolm.Hub

namespace Mozolm.Server
open Hub

theorem visited_chars {ts : List (List Int)} (h : ∀ u ∈ ts, ∀ c ∈ u, 0 ≤ c) {r : Request} (hr : ∀ c ∈ r.text, 0 ≤ c) :
    ∀ u ∈ visited ts r, ∀ c ∈ u, 0 ≤ c := by
  cases r with
  | getNextState ctx s => exact visits_chars ctx hr (sourceText_chars h _) h
  | getLMScores ctx s => exact visits_chars ctx hr (sourceText_chars h _) h
  | updateLMScores s cs n =>
    have h1 := visits_chars cs hr (sourceText_chars h (toInt32 s)) h
    exact visits_chars cs hr (sourceText_chars h1 _) h1

theorem directory_chars {reqs : List Request} (ht : Typed reqs) : ∀ u ∈ directory reqs, ∀ c ∈ u, 0 ≤ c := by
  suffices H : ∀ (reqs : List Request) (ts : List (List Int)), Typed reqs → (∀ u ∈ ts, ∀ c ∈ u, 0 ≤ c) →
      ∀ u ∈ reqs.foldl visited ts, ∀ c ∈ u, 0 ≤ c from H reqs [[]] ht (by simp)
  intro reqs
  induction reqs with
  | nil => intro ts _ h; exact h
  | cons r rs ih =>
    intro ts ht h
    exact ih _ (fun r' h' => ht r' (by simp [h'])) (visited_chars h (ht r (by simp)))

end Mozolm.Server

namespace Mozolm.System
open Mozolm.Hub Mozolm.Server
variable {A : Arith} {encode : Int → Str} {fuel : Nat}

/-- What the server makes of the hub's answer. -/
def told (x : Option (LMScores A.D)) : Reply (LMScores A.D) := match x with | some r => .ok r | none => .invalidArgument

theorem getLMScores_told {σ : Type} {env : Hub.Env A σ} {h h1 : Hub A σ} {ctx : List Int} {x r : Int}
    (e : contextState env h ctx (toInt32 x) = .ok (r, h1)) :
    (Server.getLMScores env h ctx x).map Prod.fst = ((extractLMScores env h1 r).map Prod.fst).map told := by
  simp only [Server.getLMScores, e, ok_bind]
  cases extractLMScores env h1 r with
  | error f => rfl
  | ok y => obtain ⟨a, b⟩ := y; cases a <;> rfl

/-- The answer at a place of the directory is the fresh server's to the text there. -/
theorem as_fresh {models : List (Component A)} (hs : ∀ m ∈ models, Served encode m) :
    ∃ bound, ∀ fuel, bound ≤ fuel → ∀ orderN orderV, (env A encode fuel orderN orderV).Fair →
      ∀ cfg calls h0 h, ((∀ m ∈ models, Fixed m) ∨ Hub.Quiet calls) →
        Hub.initializeModels (env A encode fuel orderN orderV) models cfg = .ok (some h0) →
        Hub.Reach (env A encode fuel orderN orderV) models cfg calls h →
        ∀ ts, Indexed h ts → h.max = cfgMax cfg → ts.length ≤ h.max → ∀ (u : List Int) (k : Nat), ts[k]? = some u → (∀ c ∈ u, 0 ≤ c) →
        ((extractLMScores (env A encode fuel orderN orderV) h (k : Int)).map Prod.fst).map told =
          (Server.getLMScores (env A encode fuel orderN orderV) h0 u 0).map Prod.fst := by
  obtain ⟨bound, hb⟩ := C73_hub hs
  refine ⟨bound, fun fuel hfu orderN orderV hf cfg calls h0 h hq i0 hr ts hx hmax hlen u k hk hu => ?_⟩
  have hr0 : Hub.Reach (env A encode fuel orderN orderV) models cfg [] h0 := ⟨h0, i0, rfl⟩
  have hi0 := (Hub.reach_good hf hr0).inv
  obtain ⟨r0, h1, e1, -⟩ := Hub.contextLoop_ok hf hi0 0 u
  have e1' : contextState (env A encode fuel orderN orderV) h0 u 0 = .ok (r0, h1) := e1
  obtain ⟨x0, _, m0⟩ := Server.Reach.indexed (reqs := []) hf (⟨h0, i0, rfl⟩ : Server.Reach _ models cfg [] h0) (by simp [Typed])
    (by
      have := lt_of_getElem?_eq_some hx.root
      show 1 ≤ _
      omega)
  have hlong := hx.longest (List.mem_of_getElem? hk)
  have hv := visits_length u (directory []) (sourceText (directory []) 0)
  have hd : (directory []).length = 1 := rfl
  obtain ⟨x1, _, _⟩ := Indexed.context hf hu x0 hi0 e1 (by rw [m0]; omega)
  rw [getLMScores_told (x := 0) e1']
  congr 1
  refine hb fuel hfu orderN orderV hf cfg calls [] h h0 ?_ hr hr0 u hu 0 0 (Int.le_refl _) (Int.le_refl _) k r0 h h1 (hx.asked hk) e1' hx.fresh x1.fresh
  exact hq.imp_right fun h => ⟨h, fun _ _ _ h => by cases h⟩

/-- **C99** (scores) A server in front of any models, after any requests in which nothing was learnt, with room for the
texts visited: the reply to asking for the scores of `text` after state `x` is the one that a freshly started server gives
to the text of the state and `text`. -/
theorem C99_scores {models : List (Component A)} (hs : ∀ m ∈ models, Served encode m) :
    ∃ bound, ∀ fuel, bound ≤ fuel → ∀ orderN orderV, (env A encode fuel orderN orderV).Fair →
      ∀ cfg reqs h0 h, NothingLearnt models reqs →
        Hub.initializeModels (env A encode fuel orderN orderV) models cfg = .ok (some h0) →
        Server.serveAll (env A encode fuel orderN orderV) h0 reqs = .ok h →
        ∀ text x, Typed (reqs ++ [.getLMScores text x]) → (directory (reqs ++ [.getLMScores text x])).length ≤ cfgMax cfg →
        (text ≠ [] ∨ toInt32 x < (directory reqs).length) →
        (Server.getLMScores (env A encode fuel orderN orderV) h text x).map Prod.fst =
          (Server.getLMScores (env A encode fuel orderN orderV) h0 (sourceText (directory reqs) (toInt32 x) ++ text) 0).map Prod.fst := by
  obtain ⟨bound, hb⟩ := as_fresh hs
  refine ⟨bound, fun fuel hfu orderN orderV hf cfg reqs h0 h hq i0 i1 text x ht hroom hx => ?_⟩
  have hr : Server.Reach (env A encode fuel orderN orderV) models cfg reqs h := ⟨h0, i0, i1⟩
  rw [directory_snoc] at hroom
  have htr : Typed reqs := fun r hr' => ht r (by simp [hr'])
  have htx : ∀ c ∈ text, 0 ≤ c := ht (.getLMScores text x) (by simp)
  obtain ⟨x1, x2, x3⟩ := hr.indexed hf htr (Nat.le_trans (visited_prefix _ _).length_le hroom)
  have hz := sourceText_clamp _ x1.root (toInt32 x)
  obtain ⟨r, h', e, -⟩ := contextLoop_ok hf x2 (if toInt32 x < 0 then 0 else toInt32 x) text
  have e' : contextState (env A encode fuel orderN orderV) h text (toInt32 x) = .ok (r, h') := e
  obtain ⟨a1, a2, a3, a4⟩ := Indexed.context hf htx x1 x2 e (by rw [hz, x3]; exact hroom)
  rw [hz] at a1 a4
  obtain ⟨k, rfl, hk⟩ := a4 (hx.imp_right fun h1 => by
    have := lt_of_getElem?_eq_some x1.root
    split <;> omega)
  obtain ⟨calls, hc, u, -⟩ := hr.hub'
  have hc' : Hub.Reach (env A encode fuel orderN orderV) models cfg (calls ++ [.context text (toInt32 x)]) h' := by
    obtain ⟨g0, j0, j1⟩ := hc
    exact ⟨g0, j0, by rw [run_append, j1, ok_bind]; simp only [run, step, e', ok_bind]⟩
  rw [getLMScores_told e']
  refine hb fuel hfu orderN orderV hf cfg _ h0 h' ?_ i0 hc' _ a1 (a3.trans x3) (by rw [a3, x3]; exact hroom) _ k hk ?_
  · rcases hq with hq | hq
    · exact .inl hq
    · refine .inr fun s cs n hm => ?_
      simp only [List.mem_append, List.mem_singleton, reduceCtorEq, or_false] at hm
      obtain ⟨s', hm⟩ := u s cs n hm
      exact hq _ _ _ hm
  · intro c hc
    rcases List.mem_append.1 hc with h1 | h1
    · exact sourceText_chars (directory_chars htr) _ c h1
    · exact htx c h1

/-- **C99** (updates) The same for the reply to counting a text at state `x`, if that is not learnt either. -/
theorem C99_update {models : List (Component A)} (hs : ∀ m ∈ models, Served encode m) (hm : 0 < models.length) :
    ∃ bound, ∀ fuel, bound ≤ fuel → ∀ orderN orderV, (env A encode fuel orderN orderV).Fair →
      ∀ cfg reqs h0 h, (cfg.mixture = .interpolation → cfg.weights.length ≤ models.length) →
        Hub.initializeModels (env A encode fuel orderN orderV) models cfg = .ok (some h0) →
        Server.serveAll (env A encode fuel orderN orderV) h0 reqs = .ok h →
        ∀ x cs n, NothingLearnt models (reqs ++ [.updateLMScores x cs n]) →
        Typed (reqs ++ [.updateLMScores x cs n]) → (directory (reqs ++ [.updateLMScores x cs n])).length ≤ cfgMax cfg →
        0 ≤ toInt32 x → toInt32 x < (directory reqs).length →
        (Server.updateLMScores (env A encode fuel orderN orderV) h x cs n).map Prod.fst =
          (Server.getLMScores (env A encode fuel orderN orderV) h0 (sourceText (directory reqs) (toInt32 x) ++ cs) 0).map Prod.fst := by
  obtain ⟨b1, hb⟩ := as_fresh hs
  obtain ⟨b2, hlv⟩ := served_live hs
  obtain ⟨b3, hcom⟩ := C72_calls_complete hs hm
  refine ⟨max b1 (max b2 b3), fun fuel hfu orderN orderV hf cfg reqs h0 h hcfg i0 i1 x cs n hq ht hroom hx0 hx1 => ?_⟩
  have hr : Server.Reach (env A encode fuel orderN orderV) models cfg reqs h := ⟨h0, i0, i1⟩
  rw [directory_snoc] at hroom
  have htr : Typed reqs := fun r hr' => ht r (by simp [hr'])
  have hcs : ∀ c ∈ cs, 0 ≤ c := ht (.updateLMScores x cs n) (by simp)
  obtain ⟨x1, x2, x3⟩ := hr.indexed hf htr (Nat.le_trans (visited_prefix _ _).length_le hroom)
  -- the walk
  obtain ⟨w, h1, e1, g1, -, -⟩ := walk_ok hf x2 (toInt32 x) cs
  have e1' := e1
  rw [walk_context hf x2 hcs] at e1'
  have hpre : visits (directory reqs) (sourceText (directory reqs) (toInt32 x)) cs <+: visited (directory reqs) (.updateLMScores x cs n) := visits_prefix _ _ _
  obtain ⟨a1, a2, a3, a4⟩ := Indexed.context hf hcs x1 x2 e1' (by rw [x3]; exact Nat.le_trans hpre.length_le hroom)
  obtain ⟨k, rfl, hk⟩ := a4 (.inr ⟨hx0, hx1⟩)
  -- the counts
  obtain ⟨calls, hc, u, -⟩ := hr.hub'
  obtain ⟨calls1, f1, f2, -⟩ := walk_calls' e1
  have hr1 : Hub.Reach (env A encode fuel orderN orderV) models cfg (calls ++ calls1) h1 := by
    obtain ⟨g0, j0, j1⟩ := hc
    exact ⟨g0, j0, by rw [run_append, j1, ok_bind]; exact f1⟩
  have hlen1 : (directory reqs).length ≤ h1.states.length := by
    have := g1.const.len
    rw [x1.len] at this
    exact this
  have hv1 : h1.valid (toInt32 x) = true := by
    simp only [Hub.valid, Bool.and_eq_true, decide_eq_true_eq]; omega
  obtain ⟨h2, e2⟩ := hcom fuel (by omega) orderN orderV hf cfg _ h1 hcfg hr1 (.update (toInt32 x) cs n) (fun s cs' n' he => by
    cases he; exact .inr ⟨hv1, hcs⟩)
  have e2' := e2
  simp only [Hub.step] at e2
  obtain ⟨⟨b, h2'⟩, e3, e4⟩ := bind_ok.1 e2
  have e42 : h2' = h2 := by cases e4; rfl
  subst e42
  have hr2 : Hub.Reach (env A encode fuel orderN orderV) models cfg (calls ++ calls1 ++ [.update (toInt32 x) cs n]) h2' := by
    obtain ⟨g0, j0, j1⟩ := hr1
    exact ⟨g0, j0, by rw [run_append, j1, ok_bind]; simp only [run, e2', ok_bind]⟩
  have g3 := update_good hf a2 e3
  have hsame : sourceText (visits (directory reqs) (sourceText (directory reqs) (toInt32 x)) cs) (toInt32 x) = sourceText (directory reqs) (toInt32 x) := by
    have h1 : (directory reqs)[(toInt32 x).toNat]? = some (sourceText (directory reqs) (toInt32 x)) := by
      have := x1.source (toInt32 x)
      have hsv := source_valid (h := h) hx0 (by rw [x1.len]; exact hx1)
      rw [show (toInt32 x).toNat = Hub.source h (toInt32 x) by omega]
      exact this
    have h2 := prefix_get (visits_prefix cs _ (sourceText (directory reqs) (toInt32 x))) h1
    have := sourceText_get h2
    rwa [Int.toNat_of_nonneg hx0] at this
  have hagain : visits (visits (directory reqs) (sourceText (directory reqs) (toInt32 x)) cs) (sourceText (directory reqs) (toInt32 x)) cs =
      visits (directory reqs) (sourceText (directory reqs) (toInt32 x)) cs := visits_again cs List.prefix_rfl
  have b1 := a1.update hf a2 hcs (by
    rw [hsame, hagain, a3, x3]; exact Nat.le_trans hpre.length_le hroom) (fun _ h1 => by rw [hsame, hagain] at h1; exact h1) e3
  rw [hsame, hagain] at b1
  have hbt : b = true := counts_accepted hf (hlv fuel (by omega)) hr1 hv1 e3 b1.fresh
  subst hbt
  have key := hb fuel (by omega) orderN orderV hf cfg _ h0 h2' ?_ i0 hr2 _ b1 (by rw [g3.const.max, a3, x3])
    (by rw [g3.const.max, a3, x3]; exact Nat.le_trans hpre.length_le hroom) _ k hk ?_
  · rw [← key]
    simp only [Server.updateLMScores, e1, ok_bind, e3, if_true]
    cases extractLMScores (env A encode fuel orderN orderV) h2' (k : Int) with
    | error f => rfl
    | ok y => obtain ⟨a, b⟩ := y; cases a <;> rfl
  · rcases hq with hq | hq
    · exact .inl hq
    · refine .inr fun s cs' n' hm => ?_
      simp only [List.mem_append, List.mem_singleton, Call.update.injEq] at hm
      rcases hm with (hm | hm) | ⟨rfl, rfl, rfl⟩
      · obtain ⟨s', hm⟩ := u s cs' n' hm
        exact hq s' _ _ (List.mem_append_left _ hm)
      · exact absurd hm (f2 _ _ _)
      · exact hq x _ _ (List.mem_append_right _ (List.mem_singleton.2 rfl))
  · intro c hc
    rcases List.mem_append.1 hc with h1 | h1
    · exact sourceText_chars (directory_chars htr) _ c h1
    · exact hcs c h1

/-- C99: the n-gram models, which do not learn, behind a mixing server with Bayesian history. After the state of "a" was asked
for it is 1; counting "b" there gets the fresh server's reply to "ab". -/
example : ∃ (models : List (Component Arith.xr)) (fuel : Nat) (cfg : HubConfig XR) (h0 h : Hub Arith.xr (Component Arith.xr)) (rep : LMScores XR)
    (h1 h2 : Hub Arith.xr (Component Arith.xr)),
    models.length = 2 ∧ 0 < cfg.bayesianHistoryLength ∧
    initializeModels (env Arith.xr demoEncode fuel id id) models cfg = .ok (some h0) ∧
    getNextState (env Arith.xr demoEncode fuel id id) h0 [97] 0 = .ok (.ok 1, h) ∧
    updateLMScores (env Arith.xr demoEncode fuel id id) h 1 [98] 1 = .ok (.ok rep, h1) ∧
    getLMScores (env Arith.xr demoEncode fuel id id) h0 [97, 98] 0 = .ok (.ok rep, h2) := by
  obtain ⟨models, hl, hs, hk, b, p, c, w, rfl⟩ := demo_served
  have hs' : ∀ m ∈ [Component.char c, .word w], Served demoEncode m := fun m hm => hs m (by simp_all)
  have hfix : ∀ m ∈ [Component.char c, .word w], Fixed m := fun m hm => by
    simp only [List.mem_cons, List.not_mem_nil, or_false] at hm
    rcases hm with rfl | rfl <;> trivial
  obtain ⟨b1, hb1⟩ := C72_service hs' (by simp)
  obtain ⟨b2, hb2⟩ := C99_update hs' (by simp)
  have hf : (env Arith.xr demoEncode (max b1 b2) id id).Fair := ⟨fun _ => .refl _, fun _ => .refl _⟩
  let cfg : HubConfig XR :=
    { mixture := .interpolation, weights := [.fin 0, .fin 0], bayesianHistoryLength := 2, maxStates := 20 }
  have hcfg : cfg.mixture = .interpolation → cfg.weights.length ≤ [Component.char c, .word w].length := fun _ => Nat.le_refl 2
  obtain ⟨h0, hr0⟩ : ∃ h0, initializeModels (env Arith.xr demoEncode (max b1 b2) id id) [.char c, .word w] cfg = .ok (some h0) :=
    ⟨_, by rw [initialize_eq hf, if_neg (by decide)]⟩
  have hreach : Server.Reach (env Arith.xr demoEncode (max b1 b2) id id) [.char c, .word w] cfg [] h0 := ⟨h0, hr0, rfl⟩
  obtain ⟨k, h, e1, hk1⟩ := C79_directory hf hreach (text := [97]) (x := 0) (by simp [Server.Typed, Request.text]) (by decide) (.inl (by simp))
  have hk2 : k = 1 := by
    have hd : directory [.getNextState [97] 0] = [[], [97]] := by decide
    have hsr : sourceText (directory []) (toInt32 0) ++ [97] = [97] := by decide
    rw [List.nil_append, hd, hsr] at hk1
    match k, hk1 with
    | 0, h => simp at h
    | 1, _ => rfl
    | n + 2, h => simp at h
  subst hk2
  have i1 : serveAll (env Arith.xr demoEncode (max b1 b2) id id) h0 [.getNextState [97] 0] = .ok h := by
    simp only [serveAll, serve, e1, ok_bind]
  obtain ⟨rep, h2, e2, e3⟩ := (hb1 _ (by omega) _ _ hf cfg _ h0 hcfg hreach).2 [97, 98] 0
  obtain ⟨r, rfl⟩ := e3 (fun m hm => by
    rw [initialize_eq hf, if_neg (by decide)] at hr0
    cases hr0
    simp only [initial, List.mem_cons, List.not_mem_nil, or_false] at hm
    rcases hm with rfl | rfl <;> simp) (.inl (by simp))
  have key := hb2 _ (by omega) _ _ hf cfg [.getNextState [97] 0] h0 h hcfg hr0 i1 1 [98] 1 (.inl hfix) (by simp [Server.Typed, Request.text])
    (by decide) (by decide) (by decide)
  rw [show sourceText (directory [.getNextState [97] 0]) (toInt32 1) ++ [98] = [97, 98] by decide, e2] at key
  cases hu : updateLMScores (env Arith.xr demoEncode (max b1 b2) id id) h 1 [98] 1 with
  | error f => rw [hu] at key; cases key
  | ok y =>
    obtain ⟨a, h1⟩ := y
    rw [hu] at key
    have : a = .ok r := by simpa [Except.map] using key
    subst this
    exact ⟨_, _, cfg, h0, h, r, h1, h2, rfl, by decide, hr0, e1, hu, e2⟩

end Mozolm.System
