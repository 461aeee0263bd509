import Verif.System.WeighedSpec
import Verif.Props.Continue
import Verif.Props.Chain
import Verif.Props.Alone

/-!
# C100: the texts that the client generates with models that do not learn
-/

namespace Mozolm.System
open Mozolm.Hub Mozolm.Server
variable {encode : Int → Str} {decode : Str → List Int} {sort : List (XR × Str) → List (XR × Str)} {models : List (Component Arith.xr)}

theorem Weighed.text {σ : Type} {env : Env Arith.xr σ} {h0 : Hub Arith.xr σ} {text text' : List Int} {syms : List Str} {q : ℝ}
    (h : Weighed env decode h0 text syms q text') : text' = text ++ syms.flatMap decode := by
  induction h with
  | nil => simp
  | cons _ _ _ _ _ ih => rw [ih]; simp

theorem Replies.unique {σ : Type} {env : Env Arith.xr σ} {h0 : Hub Arith.xr σ} {text : List Int} {r r' : LMScores XR}
    (h : Replies env h0 text r) (h' : Replies env h0 text r') : r = r' := by
  obtain ⟨a, e⟩ := h
  obtain ⟨b, e'⟩ := h'
  rw [e] at e'; cases e'; rfl

theorem reply_of_map {σ α : Type} {x : Except Fault (Reply α × σ)} {y : Except Fault (Reply α × σ)} (h : x.map Prod.fst = y.map Prod.fst)
    {r : α} {s : σ} (hy : y = .ok (.ok r, s)) : ∃ s', x = .ok (.ok r, s') := by
  subst hy
  cases x with
  | error f => cases h
  | ok x =>
    obtain ⟨a, b⟩ := x
    have : a = .ok r := by simpa [Except.map] using h
    subst this
    exact ⟨b, rfl⟩

theorem visited_update_once {ts : List (List Int)} {x : Int} {cs : List Int} {n : Int} (h0 : 0 ≤ toInt32 x) (h1 : toInt32 x < ts.length) :
    visited ts (.updateLMScores x cs n) = visits ts (sourceText ts (toInt32 x)) cs := by
  obtain ⟨t, ht⟩ := exists_getElem?_of_lt (l := ts) (i := (toInt32 x).toNat) (by omega)
  have e1 : sourceText ts (toInt32 x) = t := by
    have := sourceText_get ht
    rwa [Int.toNat_of_nonneg h0] at this
  have e2 : sourceText (visits ts t cs) (toInt32 x) = t := by
    have := sourceText_get (prefix_get (visits_prefix cs ts t) ht)
    rwa [Int.toNat_of_nonneg h0] at this
  show visits (visits ts (sourceText ts (toInt32 x)) cs) (sourceText (visits ts (sourceText ts (toInt32 x)) cs) (toInt32 x)) cs = _
  rw [e1, e2, visits_again cs List.prefix_rfl]

theorem sourceText_some {ts : List (List Int)} {s : Int} {t : List Int} (h0 : 0 ≤ s) (h : ts[s.toNat]? = some t) : sourceText ts s = t := by
  have := sourceText_get h
  rwa [Int.toNat_of_nonneg h0] at this

/-- A server whose models do not learn, with room for the rest, offers the symbols with the fresh server's probabilities. -/
theorem offers_fixed (hs : ∀ m ∈ models, Served encode m) (hm : 0 < models.length) (hfix : ∀ m ∈ models, Fixed m)
    (hdec : ∀ sym, ∀ c ∈ decode sym, 0 ≤ c) :
    ∃ bound, ∀ fuel, bound ≤ fuel → ∀ orderN orderV, (env Arith.xr encode fuel orderN orderV).Fair →
      ∀ (cfg : HubConfig XR) h0, (cfg.mixture = .interpolation → cfg.weights.length ≤ models.length) → cfgMax (A := Arith.xr) cfg ≤ 2 ^ 31 →
        initializeModels (env Arith.xr encode fuel orderN orderV) models cfg = .ok (some h0) →
        ∀ {text text' : List Int} {syms : List Str} {q : ℝ}, Weighed (env Arith.xr encode fuel orderN orderV) decode h0 text syms q text' →
        ∀ (reqs : List Request) h (s : Nat) r, serveAll (env Arith.xr encode fuel orderN orderV) h0 reqs = .ok h → Server.Typed reqs →
          (directory reqs)[s]? = some text → (directory reqs).length + (syms.map fun sym => (decode sym).length).sum ≤ cfgMax (A := Arith.xr) cfg →
          Replies (env Arith.xr encode fuel orderN orderV) h0 text r →
          ∃ h' s' r', Offered (env Arith.xr encode fuel orderN orderV) decode h s r syms q h' s' r' ∧
            Replies (env Arith.xr encode fuel orderN orderV) h0 text' r' := by
  obtain ⟨bound, hb⟩ := C99_update hs hm
  refine ⟨bound, fun fuel hfu orderN orderV hf cfg h0 hcfg h31 i0 text text' syms q hwd => ?_⟩
  induction hwd with
  | @nil text r' hr hp =>
    intro reqs h s r _ _ _ _ hr'
    cases hr.unique hr'
    exact ⟨h, s, _, .nil hp, hr⟩
  | @cons text text' r' sym syms p q hr hp hne hli hw ih =>
    intro reqs h s r i1 ht hs' hroom hr'
    cases hr.unique hr'
    simp only [List.map_cons, List.sum_cons] at hroom
    have hsl := lt_of_getElem?_eq_some hs'
    have h32 : toInt32 (s : Int) = s := toInt32_of_range (by omega) (by omega)
    have hsrc : sourceText (directory reqs) (s : Int) = text := sourceText_get hs'
    have hreach : Server.Reach (env Arith.xr encode fuel orderN orderV) models cfg reqs h := ⟨h0, i0, i1⟩
    -- the reply to the whole text
    obtain ⟨r1, hr1, hp1⟩ : ∃ r1, Replies (env Arith.xr encode fuel orderN orderV) h0 (text ++ decode sym) r1 ∧ Proper r1 := by
      cases hw with
      | nil a b => exact ⟨_, a, b⟩
      | cons a b _ _ _ => exact ⟨_, a, b⟩
    -- counting
    have hd1 : directory (reqs ++ [.updateLMScores s (decode sym) 1]) = visits (directory reqs) text (decode sym) := by
      rw [directory_snoc, visited_update_once (by omega) (by omega), h32, hsrc]
    have hl1 := visits_length (decode sym) (directory reqs) text
    have ht1 : Server.Typed (reqs ++ [.updateLMScores s (decode sym) 1]) := by
      intro x hx
      rcases List.mem_append.1 hx with hx | hx
      · exact ht x hx
      · rw [List.mem_singleton.1 hx]; exact hdec sym
    have hup := hb fuel hfu orderN orderV hf cfg reqs h0 h hcfg i0 i1 s (decode sym) 1 (.inl hfix) ht1 (by rw [hd1]; omega) (by omega) (by omega)
    rw [h32, hsrc] at hup
    obtain ⟨g1, hr1'⟩ := hr1
    obtain ⟨h1, e1⟩ := reply_of_map hup hr1'
    have i2 : serveAll (env Arith.xr encode fuel orderN orderV) h0 (reqs ++ [.updateLMScores s (decode sym) 1]) = .ok h1 := by
      rw [serveAll_snoc, i1, ok_bind]
      simp only [serve, e1, ok_bind]
    -- the state after it
    have hm1 : text ++ decode sym ∈ visits (directory reqs) text (decode sym) := visits_mem _ (List.mem_of_getElem? hs')
    have hs1 : (visits (directory reqs) text (decode sym))[s]? = some text := prefix_get (visits_prefix _ _ _) hs'
    have hd2 : directory (reqs ++ [.updateLMScores s (decode sym) 1] ++ [.getNextState (decode sym) s]) = visits (directory reqs) text (decode sym) := by
      rw [directory_snoc, hd1]
      show visits _ (sourceText _ (toInt32 s)) _ = _
      rw [h32, sourceText_get hs1, visits_again _ List.prefix_rfl]
    have ht2 : Server.Typed (reqs ++ [.updateLMScores s (decode sym) 1] ++ [.getNextState (decode sym) s]) := by
      intro x hx
      rcases List.mem_append.1 hx with hx | hx
      · exact ht1 x hx
      · rw [List.mem_singleton.1 hx]; exact hdec sym
    obtain ⟨k, h2, e2, hk⟩ := C79_directory hf (⟨h0, i0, i2⟩ : Server.Reach _ models cfg _ h1) (text := decode sym) (x := s) ht2
      (by rw [hd2]; omega) (.inr (by rw [hd1, h32]; have := lt_of_getElem?_eq_some hs1; omega))
    rw [hd2, hd1, h32, sourceText_get hs1] at hk
    have i3 : serveAll (env Arith.xr encode fuel orderN orderV) h0 (reqs ++ [.updateLMScores s (decode sym) 1] ++ [.getNextState (decode sym) s]) = .ok h2 := by
      rw [serveAll_snoc, i2, ok_bind]
      simp only [serve, e2, ok_bind]
    obtain ⟨h', s', r', ho, hr2⟩ := ih _ h2 k r1 i3 ht2 (by rw [hd2]; exact hk) (by rw [hd2]; omega) ⟨g1, hr1'⟩
    exact ⟨h', s', r', .cons hp hne hli (by rw [h32]; exact e1) (by rw [h32]; exact e2) ho, hr2⟩

/-- **C100** The client generates a text, starting from `ctx`, with a server in front of models that do not learn, after
any requests that leave room in the state table. The text begins with `ctx` and the symbols exactly with the product of
their probabilities in the replies of a freshly started server to the whole text before each; and it is exactly this text
with the probability of the end in the fresh server's reply to it in addition. -/
theorem C100_generation (hs : ∀ m ∈ models, Served encode m) (hm : 0 < models.length) (hfix : ∀ m ∈ models, Fixed m)
    (hdec : ∀ sym, ∀ c ∈ decode sym, 0 ≤ c) (hnil : decode [] = []) (hsort : ∀ l, (sort l).Perm l) :
    ∃ bound, ∀ fuel, bound ≤ fuel → ∀ orderN orderV, (env Arith.xr encode fuel orderN orderV).Fair →
      ∀ (cfg : HubConfig XR) h0 reqs h, (cfg.mixture = .interpolation → cfg.weights.length ≤ models.length) → cfgMax (A := Arith.xr) cfg ≤ 2 ^ 31 →
        initializeModels (env Arith.xr encode fuel orderN orderV) models cfg = .ok (some h0) →
        serveAll (env Arith.xr encode fuel orderN orderV) h0 reqs = .ok h → Server.Typed reqs →
        ∀ (ctx : Str) (r : LMScores XR), Replies (env Arith.xr encode fuel orderN orderV) h0 (decode ctx) r → ¬ XR.le r.norm (.fin 0) →
        ∀ (syms : List Str) (q : ℝ) (text' : List Int), Weighed (env Arith.xr encode fuel orderN orderV) decode h0 (decode ctx) syms q text' →
        (directory reqs).length + (decode ctx).length + (syms.map fun sym => (decode sym).length).sum ≤ cfgMax (A := Arith.xr) cfg →
        syms.dropLast.flatten.length < 128 → ∀ (sent : List (Client.Rpc XR)) f, 128 ≤ f →
        uniforms {u | ∃ g w, Client.randGen (A := Arith.xr) (Client.Env.xr sort decode) (service (env Arith.xr encode fuel orderN orderV) decode) f
          ⟨(h, fun i => .fin (u i)), sent⟩ ctx = .ok (g, w) ∧ (ctx ++ syms.flatten) <+: g.text} = ENNReal.ofReal q ∧
        (syms.flatten.length < 128 → ∀ r' p, Replies (env Arith.xr encode fuel orderN orderV) h0 text' r' → Gives r' [] p →
          uniforms {u | ∃ w, Client.randGen (A := Arith.xr) (Client.Env.xr sort decode) (service (env Arith.xr encode fuel orderN orderV) decode) f
            ⟨(h, fun i => .fin (u i)), sent⟩ ctx = .ok (⟨true, ctx ++ syms.flatten⟩, w)} = ENNReal.ofReal (q * p)) := by
  obtain ⟨b1, hb1⟩ := offers_fixed hs hm hfix hdec
  obtain ⟨b2, hb2⟩ := C99_scores hs
  refine ⟨max b1 b2, fun fuel hfu orderN orderV hf cfg h0 reqs h hcfg h31 i0 i1 ht ctx r hr hn syms q text' hwd hroom hshort sent f hfuel => ?_⟩
  have hreach : Server.Reach (env Arith.xr encode fuel orderN orderV) models cfg reqs h := ⟨h0, i0, i1⟩
  have hroot : ∀ rs : List Request, sourceText (directory rs) (-1) = [] := fun rs => rfl
  have hneg : toInt32 (-1) = -1 := by decide
  have ht1 : Server.Typed (reqs ++ [.getNextState (decode ctx) (-1)]) := by
    intro x hx
    rcases List.mem_append.1 hx with hx | hx
    · exact ht x hx
    · rw [List.mem_singleton.1 hx]; exact hdec ctx
  have hd1 : directory (reqs ++ [.getNextState (decode ctx) (-1)]) = visits (directory reqs) [] (decode ctx) := by
    rw [directory_snoc]
    show visits _ (sourceText _ (toInt32 (-1))) _ = _
    rw [hneg, hroot]
  have hl1 := visits_length (decode ctx) (directory reqs) []
  obtain ⟨k, h1, e1, hk⟩ := C79_directory hf hreach (text := decode ctx) (x := -1) ht1 (by rw [hd1]; omega) (.inr (by rw [hneg]; omega))
  rw [hd1, hneg, hroot, List.nil_append] at hk
  have hkl := lt_of_getElem?_eq_some hk
  have h32 : toInt32 (k : Int) = k := toInt32_of_range (by omega) (by omega)
  have i2 : serveAll (env Arith.xr encode fuel orderN orderV) h0 (reqs ++ [.getNextState (decode ctx) (-1)]) = .ok h1 := by
    rw [serveAll_snoc, i1, ok_bind]
    simp only [serve, e1, ok_bind]
  have ht2 : Server.Typed (reqs ++ [.getNextState (decode ctx) (-1)] ++ [.getLMScores [] k]) := by
    intro x hx
    rcases List.mem_append.1 hx with hx | hx
    · exact ht1 x hx
    · rw [List.mem_singleton.1 hx]; intro c hc; cases hc
  have hd2 : directory (reqs ++ [.getNextState (decode ctx) (-1)] ++ [.getLMScores [] k]) = visits (directory reqs) [] (decode ctx) := by
    rw [directory_snoc, hd1]; rfl
  have hsc := hb2 fuel (by omega) orderN orderV hf cfg (reqs ++ [.getNextState (decode ctx) (-1)]) h0 h1 (.inl hfix) i0 i2 [] k ht2
    (by rw [hd2]; exact Nat.le_trans hl1 (Nat.le_trans (Nat.le_add_right _ _) hroom)) (.inr (by rw [hd1, h32]; exact Int.ofNat_lt.2 hkl))
  rw [hd1, h32, sourceText_get hk, List.append_nil] at hsc
  obtain ⟨g0, hr0⟩ := hr
  obtain ⟨h2, e2⟩ := reply_of_map hsc hr0
  have i3 : serveAll (env Arith.xr encode fuel orderN orderV) h0 (reqs ++ [.getNextState (decode ctx) (-1)] ++ [.getLMScores [] k]) = .ok h2 := by
    rw [serveAll_snoc, i2, ok_bind]
    simp only [serve, e2, ok_bind]
  obtain ⟨h', s', r', ho, hr'⟩ := hb1 fuel (by omega) orderN orderV hf cfg h0 hcfg h31 i0 hwd _ h2 k r i3 ht2 (by rw [hd2]; exact hk)
    (by rw [hd2]; omega) ⟨g0, hr0⟩
  have hop : Opened (env Arith.xr encode fuel orderN orderV) decode h ctx k r h2 := ⟨⟨h1, e1, by rw [hnil, h32]; exact e2⟩, hn⟩
  have key := C97_chain hsort hop ho hshort sent hfuel
  refine ⟨key.1, fun hlt r2 p hr2 hg => key.2 hlt p ?_⟩
  rw [hr'.unique hr2]
  exact hg

/-- **C100** The `k` most likely continuations of `ctx` that the client prints are those of the fresh server's reply. -/
theorem C100_kbest (hs : ∀ m ∈ models, Served encode m) (hfix : ∀ m ∈ models, Fixed m)
    (hdec : ∀ sym, ∀ c ∈ decode sym, 0 ≤ c) (hsort : SortsFalling sort) :
    ∃ bound, ∀ fuel, bound ≤ fuel → ∀ orderN orderV, (env Arith.xr encode fuel orderN orderV).Fair →
      ∀ (cfg : HubConfig XR) h0 reqs h,
        initializeModels (env Arith.xr encode fuel orderN orderV) models cfg = .ok (some h0) →
        serveAll (env Arith.xr encode fuel orderN orderV) h0 reqs = .ok h → Server.Typed reqs →
        ∀ (ctx : Str) (r : LMScores XR), Replies (env Arith.xr encode fuel orderN orderV) h0 (decode ctx) r → ¬ XR.le r.norm (.fin 0) → Proper r →
        (directory reqs).length + (decode ctx).length ≤ cfgMax (A := Arith.xr) cfg → ∀ (random : Nat → XR) (sent : List (Client.Rpc XR)) (k : Int),
        (k ≤ r.symbols.length → ∃ (l : List (ℝ × Str)) (w : Client.World XR (Hub Arith.xr (Component Arith.xr) × (Nat → XR))), Best r k.toNat l ∧
          Client.oneKbestSample (A := Arith.xr) (Client.Env.xr sort decode) (service (env Arith.xr encode fuel orderN orderV) decode)
            ⟨(h, random), sent⟩ k ctx = .ok (some (l.map fun x => (.fin x.1, x.2)), w)) ∧
        ((r.symbols.length : Int) < k →
          Client.oneKbestSample (A := Arith.xr) (Client.Env.xr sort decode) (service (env Arith.xr encode fuel orderN orderV) decode)
            ⟨(h, random), sent⟩ k ctx = .error .ub) := by
  obtain ⟨bound, hb⟩ := C99_scores hs
  refine ⟨bound, fun fuel hfu orderN orderV hf cfg h0 reqs h i0 i1 ht ctx r hr hn hp hroom random sent k => ?_⟩
  have hneg : toInt32 (-1) = -1 := by decide
  have ht1 : Server.Typed (reqs ++ [.getLMScores (decode ctx) (-1)]) := by
    intro x hx
    rcases List.mem_append.1 hx with hx | hx
    · exact ht x hx
    · rw [List.mem_singleton.1 hx]; exact hdec ctx
  have hd1 : directory (reqs ++ [.getLMScores (decode ctx) (-1)]) = visits (directory reqs) [] (decode ctx) := by
    rw [directory_snoc]
    show visits _ (sourceText _ (toInt32 (-1))) _ = _
    rw [hneg]; rfl
  have hl1 := visits_length (decode ctx) (directory reqs) []
  have hsc := hb fuel hfu orderN orderV hf cfg reqs h0 h (.inl hfix) i0 i1 (decode ctx) (-1) ht1 (by rw [hd1]; omega) (.inr (by rw [hneg]; omega))
  rw [hneg, show sourceText (directory reqs) (-1) = [] from rfl, List.nil_append] at hsc
  obtain ⟨g0, hr0⟩ := hr
  obtain ⟨h', e⟩ := reply_of_map hsc hr0
  obtain ⟨a1, a2⟩ := C97_kbest hsort e hn hp random sent k
  refine ⟨fun hk => ?_, a2⟩
  obtain ⟨l, w, b1, _, b3⟩ := a1 hk
  exact ⟨l, w, b1, b3⟩

/-- With one model in use, the fresh server's reply is what that model says on its own. -/
theorem replies_alone {m : Component Arith.xr} {ms : List (Component Arith.xr)} (hs : ∀ x ∈ m :: ms, Served encode x) :
    ∃ bound, ∀ fuel, bound ≤ fuel → ∀ orderN orderV, (env Arith.xr encode fuel orderN orderV).Fair →
      ∀ (cfg : HubConfig XR) h0, (cfg.mixture = .none ∨ cfg.weights.length < 2) →
        initializeModels (env Arith.xr encode fuel orderN orderV) (m :: ms) cfg = .ok (some h0) →
        ∀ text, (∀ c ∈ text, 0 ≤ c) → text.length < cfgMax (A := Arith.xr) cfg → ∀ r,
        (Replies (env Arith.xr encode fuel orderN orderV) h0 text r ↔ alone encode fuel m text = some r) := by
  obtain ⟨bound, hb⟩ := C74_single hs
  refine ⟨bound, fun fuel hfu orderN orderV hf cfg h0 hcfg i0 text ht hl r => ?_⟩
  obtain ⟨h', e⟩ := hb fuel hfu orderN orderV hf cfg [] h0 hcfg (.inr fun _ _ _ h => by cases h) ⟨h0, i0, rfl⟩ text ht 0 (by decide) (le_refl _)
    (by simp only [List.map_nil, List.sum_nil]; omega)
  unfold Replies
  rw [e]
  cases alone encode fuel m text with
  | none => simp
  | some x =>
    simp only [Except.ok.injEq, Prod.mk.injEq, Reply.ok.injEq, Option.some.injEq]
    exact ⟨fun ⟨_, h, _⟩ => h, fun h => ⟨h', h, rfl⟩⟩

end Mozolm.System
