import Verif.Props.Chain
import Verif.Props.PairCode
import Verif.System.PairChanceSpec

/-!
# C98: what the client generates and prints with a server in front of a bigram model
-/

namespace Mozolm.System
open Mozolm.Hub Mozolm.Server
variable {encode : Int → Str} {fuel : Nat} {m0 : Bigram.Model} {V : List Int} {T : Pairs}
  {orderN : List (Int × Nat) → List (Int × Nat)} {orderV : List (Str × XR) → List (Str × XR)}
  {models : List (Component Arith.xr)} {cfg : HubConfig XR} {h : Hub Arith.xr (Component Arith.xr)}
  {sort : List (XR × Str) → List (XR × Str)} {decode : Str → List Int}

theorem pairs_probs (hne : V ≠ []) (hpos : ∀ a ∈ V, ∀ b ∈ V, 1 ≤ T a b) (a : Int) :
    (T.reply Arith.xr encode V a).probs = (V.map (T.share V a)).map XR.fin := by
  have htot : (0 : ℝ) < (T.total V (under V a) : ℝ) := by exact_mod_cast pairs_total_pos hne hpos a
  simp only [Pairs.reply, List.map_map]
  refine List.map_congr_left fun c hc => ?_
  exact Bigram.div_fin htot.ne'

theorem pairs_lists (hne : V ≠ []) (hpos : ∀ a ∈ V, ∀ b ∈ V, 1 ≤ T a b) (a : Int) (sym : Str) (p : ℝ) :
    Lists (T.reply Arith.xr encode V a) sym p ↔ ∃ c ∈ V, encode c = sym ∧ p = T.share V a c := by
  unfold Lists
  rw [pairs_probs hne hpos, List.map_map, show (T.reply Arith.xr encode V a).symbols = V.map encode from rfl, List.zip_map', List.mem_map]
  simp only [Function.comp, Prod.mk.injEq, XR.fin.injEq]
  exact ⟨fun ⟨c, h1, h2, h3⟩ => ⟨c, h1, h3, h2.symm⟩, fun ⟨c, h1, h2, h3⟩ => ⟨c, h1, h3.symm, h2⟩⟩

theorem pairs_proper (hne : V ≠ []) (hnd : V.Nodup) (hw : Writes encode V) (hpos : ∀ a ∈ V, ∀ b ∈ V, 1 ≤ T a b) (a : Int) :
    Proper (T.reply Arith.xr encode V a) := by
  have htot : (0 : ℝ) < (T.total V (under V a) : ℝ) := by exact_mod_cast pairs_total_pos hne hpos a
  refine ⟨⟨V.map (T.share V a), pairs_probs hne hpos a, by simp [Pairs.reply], fun p hp => ?_, ?_⟩, hnd.map_on hw.apart, ?_⟩
  · obtain ⟨c, hc, rfl⟩ := List.mem_map.1 hp
    have : (1 : ℝ) ≤ (T (under V a) c : ℝ) := by exact_mod_cast hpos _ (under_mem hne a) c hc
    unfold Pairs.share
    positivity
  · have : ∀ l : List Int, (l.map (T.share V a)).sum = ((l.map (T (under V a))).sum : Int) / (T.total V (under V a) : ℝ) := by
      intro l
      induction l with
      | nil => simp
      | cons c l ih => rw [List.map_cons, List.map_cons, List.sum_cons, List.sum_cons, ih, Pairs.share, Int.cast_add, add_div]
    rw [this]
    exact div_self htot.ne'
  · intro x hx y hy hx0 hpre
    obtain ⟨c, hc, rfl⟩ := List.mem_map.1 hx
    obtain ⟨d, hd, rfl⟩ := List.mem_map.1 hy
    rw [hw.start c hc d hd hx0 hpre]

theorem pairs_norm (hne : V ≠ []) (hpos : ∀ a ∈ V, ∀ b ∈ V, 1 ≤ T a b) (a : Int) :
    ¬ XR.le (T.reply Arith.xr encode V a).norm (.fin 0) := by
  have htot : 0 < T.total V (under V a) := pairs_total_pos hne hpos a
  have hnorm : (T.reply Arith.xr encode V a).norm = .fin (T.total V (under V a) : ℝ) := rfl
  rw [hnorm]
  simp [XR.le, htot]

theorem PairsDrawn.table {a a' : Int} {xs : List Int} {q : ℝ} {T' : Pairs} (h : PairsDrawn V T a xs q T' a') : T' = T.add V a xs 1 := by
  induction h with
  | nil => exact (pairs_add_nil ..).symm
  | @cons T T' a a' x xs q hx h1 ih => rw [ih, ← pairs_add_cons]

theorem PairsDrawn.grows {a a' : Int} {xs : List Int} {q : ℝ} {T' : Pairs} (h : PairsDrawn V T a xs q T' a') (x y : Int) : T x y ≤ T' x y := by
  rw [h.table]; exact Pairs.le_add _ _ _ _ _ _ _

theorem PairsDrawn.exists (xs : List Int) (hx : ∀ x ∈ xs, x ∈ V) : ∀ (T : Pairs) (a : Int), ∃ q T' a', PairsDrawn V T a xs q T' a' := by
  induction xs with
  | nil => exact fun T a => ⟨1, T, a, .nil⟩
  | cons x xs ih =>
    intro T a
    obtain ⟨q, T', a', h⟩ := ih (fun y hy => hx y (by simp [hy])) (T.add V a [x] 1) x
    exact ⟨_, T', a', .cons (hx x (by simp)) h⟩

/-- **C98** The specification determines the probability. -/
theorem C98_unique {a a' a'' : Int} {xs : List Int} {q q' : ℝ} {T' T'' : Pairs} (h : PairsDrawn V T a xs q T' a')
    (h' : PairsDrawn V T a xs q' T'' a'') : q = q' ∧ T' = T'' ∧ a' = a'' := by
  induction h generalizing q' T'' a'' with
  | nil => cases h'; exact ⟨rfl, rfl, rfl⟩
  | cons _ _ ih =>
    cases h' with
    | cons _ g => obtain ⟨e1, e2, e3⟩ := ih g; exact ⟨by rw [e1], e2, e3⟩

/-- One character counted, and its state asked for. -/
theorem PairSitting.step (hf : (env Arith.xr encode fuel orderN orderV).Fair)
    (hv : Serving encode fuel orderN orderV models cfg) (hs : PairSitting encode fuel orderN orderV models cfg V T h) {a : Int} {s : Nat}
    (hlt : s < h.states.length) (ha : stateSym h (s : Int) = a) {x : Int} (hx : 0 ≤ x)
    (hroom : ∀ h', Further (env Arith.xr encode fuel orderN orderV) 3 h h' → h'.selfRecycled = false) (hT : (T.add V a [x] 1).Within V) :
    ∃ (h1 : Hub Arith.xr (Component Arith.xr)) (k : Nat),
      updateLMScores (env Arith.xr encode fuel orderN orderV) h s [x] 1 = .ok (.ok ((T.add V a [x] 1).reply Arith.xr encode V x), h1) ∧
      getNextState (env Arith.xr encode fuel orderN orderV) h1 [x] s = .ok (.ok (k : Int), h1) ∧
      PairSitting encode fuel orderN orderV models cfg V (T.add V a [x] 1) h1 ∧ k < h1.states.length ∧ stateSym h1 (k : Int) = x ∧
      Further (env Arith.xr encode fuel orderN orderV) 3 h h1 := by
  obtain ⟨i1, i2⟩ := hs.id32 hlt
  obtain ⟨reqs, hreach⟩ := hs.reach
  obtain ⟨rep, h1, e1⟩ := hv.update reqs _ hreach s (by omega) i2 (by omega) [x] (by simpa using hx) 1
  have hf1 : Further (env Arith.xr encode fuel orderN orderV) 3 h h1 := by
    have := further_update (env := env Arith.xr encode fuel orderN orderV) (h := h) s [x] 1
    rw [e1] at this
    cases rep <;> exact this
  obtain ⟨hr', hrep, k, hp, hk, hsym⟩ := hs.tallied.taught hf hs.weights (x := s) (n := 1) (cs := [x]) (by omega) (by omega) (by simpa using hx)
    (.inr (by simp)) e1 (hroom _ hf1) (by rw [i1, ha]; exact hT)
  have hlast : lastAt h (s : Int) [x] = x := rfl
  rw [i1, ha] at hr' hrep
  rw [hlast] at hrep hsym
  rw [i1, Int.toNat_natCast] at hp
  subst hrep
  refine ⟨h1, k, e1, ?_, hs.further hf hr' hf1, hk, hsym, hf1⟩
  simp only [Server.getNextState, contextState, i1, if_neg (show ¬ ((s : Int) < 0) by omega), contextLoop_path hp, ok_bind]

/-- The server offers the characters with their shares. -/
theorem PairSitting.offers (hf : (env Arith.xr encode fuel orderN orderV).Fair) (hne : V ≠ []) (hnd : V.Nodup) (hw : Writes encode V)
    (hv : Serving encode fuel orderN orderV models cfg) {a a' : Int} {xs : List Int} {q : ℝ} {T T' : Pairs}
    (hd : PairsDrawn V T a xs q T' a') : ∀ {h : Hub Arith.xr (Component Arith.xr)} {s : Nat}, PairSitting encode fuel orderN orderV models cfg V T h →
    s < h.states.length → stateSym h (s : Int) = a → T'.Within V →
    (∀ x ∈ xs, 0 ≤ x ∧ encode x ≠ [] ∧ decode (encode x) = [x]) →
    (∀ h', Further (env Arith.xr encode fuel orderN orderV) (3 * xs.length) h h' → h'.selfRecycled = false) →
    ∃ (h' : Hub Arith.xr (Component Arith.xr)) (s' : Nat),
      Offered (env Arith.xr encode fuel orderN orderV) decode h s (T.reply Arith.xr encode V a) (xs.map encode) q h' s' (T'.reply Arith.xr encode V a') := by
  induction hd with
  | @nil T a =>
    intro h s hs _ _ hT _ _
    obtain ⟨m, _, hm⟩ := hs.tallied.holds hT
    exact ⟨h, s, .nil (pairs_proper hne hnd hw (fun x hx y hy => hm.pos hx hy) a)⟩
  | @cons T T' a a' x xs q hx hd ih =>
    intro h s hs hlt ha hT hxs hroom
    obtain ⟨x0, x1, x2⟩ := hxs x (by simp)
    have hT1 : (T.add V a [x] 1).Within V := within_of_le hd.grows hT
    have hT0 : T.Within V := within_of_le (PairsDrawn.cons hx hd).grows hT
    obtain ⟨m, _, hm⟩ := hs.tallied.holds hT0
    have hpos : ∀ x ∈ V, ∀ y ∈ V, 1 ≤ T x y := fun x hx y hy => hm.pos hx hy
    obtain ⟨h1, k, e1, e2, hs1, hk, hsym, hfu⟩ := hs.step hf hv hlt ha x0 (fun h' hh => hroom h' (hh.mono (by simp))) hT1
    obtain ⟨h', s', ho⟩ := ih hs1 hk hsym hT (fun y hy => hxs y (by simp [hy])) (fun h' hh => hroom h' ((hfu.trans hh).mono (by simp; omega)))
    obtain ⟨i1, _⟩ := hs.id32 hlt
    refine ⟨h', s', ?_⟩
    rw [List.map_cons]
    refine .cons (h1 := h1) (pairs_proper hne hnd hw hpos a) x1 ((pairs_lists hne hpos a _ _).2 ⟨x, hx, rfl, rfl⟩) ?_ ?_ ho
    · rw [i1, x2]; exact e1
    · rw [i1, x2]; exact e2

/-- The two requests that generation begins with. -/
theorem PairSitting.opens (hf : (env Arith.xr encode fuel orderN orderV).Fair) (hne : V ≠ []) (hdec : decode [] = [])
    (hv : Serving encode fuel orderN orderV models cfg) (hs : PairSitting encode fuel orderN orderV models cfg V T h) (hT : T.Within V) {ctx : Str}
    (hpos : ∀ c ∈ decode ctx, 0 ≤ c) :
    ∃ (s : Nat) (h2 : Hub Arith.xr (Component Arith.xr)),
      Opened (env Arith.xr encode fuel orderN orderV) decode h ctx s (T.reply Arith.xr encode V ((decode ctx).getLast?.getD 0)) h2 ∧
      PairSitting encode fuel orderN orderV models cfg V T h2 ∧ s < h2.states.length ∧ stateSym h2 (s : Int) = (decode ctx).getLast?.getD 0 ∧
      Further (env Arith.xr encode fuel orderN orderV) (decode ctx).length h h2 := by
  have hcl := closedOn Arith.xr encode fuel
  have hfg : (penv Arith.xr encode fuel orderN orderV).Fair := hf.guard
  obtain ⟨r, h1, e1, g1, _⟩ := contextLoop_ok hfg hs.tallied.own.inv 0 (decode ctx)
  have hnx : Server.getNextState (env Arith.xr encode fuel orderN orderV) h (decode ctx) (-1) = .ok (.ok r, h1) := by
    rw [getNextState_guard hf hcl hs.tallied.own]
    change Server.getNextState (penv Arith.xr encode fuel orderN orderV) h (decode ctx) (-1) = _
    simp only [Server.getNextState, contextState, show toInt32 (-1) < 0 by decide, if_true, e1, ok_bind]
  have hfu := further_next (env := env Arith.xr encode fuel orderN orderV) (h := h) (decode ctx) (-1)
  rw [hnx] at hfu
  change Further _ _ h h1 at hfu
  have hp0 := hs.tallied.own.inv.pos
  obtain ⟨k, hk, k0, k1, k2⟩ := hs.tallied.names hf (decode ctx) (-1) hpos (by
    rintro ⟨_, hh⟩
    have : toInt32 (-1) = -1 := by decide
    omega) _ _ hnx
  cases hk
  obtain ⟨T1, l1, l2⟩ := hs.tallied.serve (r := .getNextState (decode ctx) (-1)) (h' := h1) hf (by simp only [Server.serve, hnx, ok_bind])
  cases l1
  have hs1 := hs.further hf l2 hfu
  obtain ⟨s, rfl⟩ := Int.eq_ofNat_of_zero_le k0
  have hlt : s < h1.states.length := by omega
  have hlast : lastAt h (-1) (decode ctx) = (decode ctx).getLast?.getD 0 := by
    unfold lastAt
    cases (decode ctx).getLast? with
    | some c => rfl
    | none => simp only [show toInt32 (-1) < 0 by decide, if_true, Option.getD_none]
  rw [hlast] at k2
  obtain ⟨i1, _⟩ := hs1.id32 hlt
  obtain ⟨reqs, hreach⟩ := hs1.reach
  obtain ⟨rep, h2, e2⟩ := hv.ask reqs _ hreach [] s
  have hrep := hs1.tallied.asks hf hT hs1.weights [] s (by simp) rep h2 e2
  rw [if_neg (by rw [i1]; omega)] at hrep
  have hlast2 : lastAt h1 (s : Int) [] = stateSym h1 s := by
    simp only [lastAt, List.getLast?_nil, i1, if_neg (show ¬ ((s : Int) < 0) by omega)]
  rw [hlast2, k2] at hrep
  subst hrep
  obtain ⟨T2, l3, l4⟩ := hs1.tallied.serve (r := .getLMScores [] s) (h' := h2) hf (by simp only [Server.serve, e2, ok_bind])
  cases l3
  have hfu2 := further_ask (env := env Arith.xr encode fuel orderN orderV) (h := h1) [] s
  rw [e2] at hfu2
  change Further _ _ h1 h2 at hfu2
  have hst : ∃ ms, h2 = { h1 with models := ms } := by
    simp only [Server.getLMScores, contextState, i1, if_neg (show ¬ ((s : Int) < 0) by omega), contextLoop, ok_bind] at e2
    obtain ⟨⟨y, h3⟩, e3, e4⟩ := bind_ok.1 e2
    obtain ⟨ms, _, hms⟩ := extract_states e3
    refine ⟨ms, ?_⟩
    cases y <;> (cases e4 <;> exact hms)
  obtain ⟨m, _, hm⟩ := hs.tallied.holds hT
  have hpos' : ∀ x ∈ V, ∀ y ∈ V, 1 ≤ T x y := fun x hx y hy => hm.pos hx hy
  refine ⟨s, h2, ⟨⟨h1, hnx, ?_⟩, pairs_norm hne hpos' _⟩, hs1.further hf l4 hfu2, ?_, ?_, (hfu.trans hfu2).mono (by simp)⟩
  · rw [hdec, i1]; exact e2
  · obtain ⟨ms, rfl⟩ := hst; exact hlt
  · obtain ⟨ms, rfl⟩ := hst; exact k2

/-- **C98** The client with a server in front of a bigram model, after any history of requests. A text it generates begins
with given characters of the vocabulary exactly with the probability that the table of the history gives them one after the
other while they are counted, from the last character of the given text (the beginning of a text, if there is none), if there
is room in the state table for these; and it is exactly this text with the probability of the character that is written as
nothing, if there is one, in addition (otherwise never). The most likely continuations it prints are those after the last
character of the given text. -/
theorem C98_generation (hms : models.head? = some (.bigram m0)) (hs : ∀ m ∈ models, Served encode m)
    (hsort : SortsFalling sort) (hdec : decode [] = []) (hw : Writes encode m0.utf8) :
    ∃ bound, ∀ fuel, bound ≤ fuel → ∀ orderN orderV, (env Arith.xr encode fuel orderN orderV).Fair →
      ∀ (cfg : HubConfig XR) reqs h, (cfg.mixture = .interpolation → cfg.weights.length < 2) → cfg.maxStates < 2 ^ 31 →
        Server.Reach (env Arith.xr encode fuel orderN orderV) models cfg reqs h →
        ∃ (h0 : Hub Arith.xr (Component Arith.xr)) (T : Pairs),
          initializeModels (env Arith.xr encode fuel orderN orderV) models cfg = .ok (some h0) ∧
          Counted (env Arith.xr encode fuel orderN orderV) m0.utf8 h0 (tableOf m0) reqs h T ∧
          ∀ ctx : Str, (∀ c ∈ decode ctx, 0 ≤ c) → ∀ sent : List (Client.Rpc XR),
            (∀ xs : List Int, (∀ x ∈ xs, x ∈ m0.utf8 ∧ 0 ≤ x ∧ encode x ≠ [] ∧ decode (encode x) = [x]) →
              (xs.dropLast.flatMap encode).length < 128 →
              1 + (reqs.map Request.symbols).sum + (decode ctx).length + 3 * xs.length ≤ cfgMax (A := Arith.xr) cfg → ∀ f, 128 ≤ f →
              ∃ (q : ℝ) (T' : Pairs) (a' : Int), PairsDrawn m0.utf8 T ((decode ctx).getLast?.getD 0) xs q T' a' ∧
                (T'.Within m0.utf8 →
                  uniforms {u | ∃ g w, Client.randGen (A := Arith.xr) (Client.Env.xr sort decode)
                    (service (env Arith.xr encode fuel orderN orderV) decode) f ⟨(h, fun i => .fin (u i)), sent⟩ ctx = .ok (g, w) ∧
                    (ctx ++ xs.flatMap encode) <+: g.text} = ENNReal.ofReal q ∧
                  ((xs.flatMap encode).length < 128 → ∀ p, Ending encode m0.utf8 T' a' p →
                    uniforms {u | ∃ w, Client.randGen (A := Arith.xr) (Client.Env.xr sort decode)
                      (service (env Arith.xr encode fuel orderN orderV) decode) f ⟨(h, fun i => .fin (u i)), sent⟩ ctx =
                        .ok (⟨true, ctx ++ xs.flatMap encode⟩, w)} = ENNReal.ofReal (q * p)))) ∧
            (T.Within m0.utf8 → ∀ (random : Nat → XR) (k : Int),
              (k ≤ m0.utf8.length → ∃ (l : List (ℝ × Str)) (w : Client.World XR (Hub Arith.xr (Component Arith.xr) × (Nat → XR))),
                PairsLikeliest encode m0.utf8 T ((decode ctx).getLast?.getD 0) k.toNat l ∧
                Client.oneKbestSample (A := Arith.xr) (Client.Env.xr sort decode) (service (env Arith.xr encode fuel orderN orderV) decode)
                  ⟨(h, random), sent⟩ k ctx = .ok (some (l.map fun x => (.fin x.1, x.2)), w)) ∧
              ((m0.utf8.length : Int) < k →
                Client.oneKbestSample (A := Arith.xr) (Client.Env.xr sort decode) (service (env Arith.xr encode fuel orderN orderV) decode)
                  ⟨(h, random), sent⟩ k ctx = .error .ub)) := by
  obtain ⟨bound, hb⟩ := served_live hs
  have hm : 0 < models.length := by
    cases models with
    | nil => cases hms
    | cons => simp
  obtain ⟨bound', hb'⟩ := serving hs hm
  refine ⟨max bound bound', fun fuel hfu orderN orderV hf cfg reqs h hcfg hmx hr => ?_⟩
  have hwt := single_weight (A := Arith.xr) hcfg
  have hmax : cfgMax (A := Arith.xr) cfg < 2 ^ 31 := by unfold cfgMax; split <;> omega
  have hj : models[0]? = some (.bigram m0) := by rw [← hms, List.head?_eq_getElem?]
  obtain ⟨h0, T, k1, k2, k3, k4, k5, k6⟩ := tallied_reach hf (hb fuel (by omega)) (j := 0) hj (by omega) hr
  have hwf : Bigram.WF m0 := hb fuel (by omega) _ (List.mem_of_getElem? hj)
  have hnd : m0.utf8.Nodup := hwf.sorted.imp fun hh => by omega
  have hv := hb' fuel (by omega) orderN orderV hf cfg hcfg
  have hsit : PairSitting encode fuel orderN orderV models cfg m0.utf8 T h := ⟨⟨reqs, hr⟩, k3, by rw [k6]; omega, by rw [k5]; exact hmax⟩
  refine ⟨h0, T, k1, k2, fun ctx hpos sent => ⟨fun xs hx hshort hroom f hfuel => ?_, fun hT random k => ?_⟩⟩
  · obtain ⟨q, T', a', hd⟩ := PairsDrawn.exists xs (fun x hxx => (hx x hxx).1) T ((decode ctx).getLast?.getD 0)
    refine ⟨q, T', a', hd, fun hT' => ?_⟩
    have hT : T.Within m0.utf8 := within_of_le hd.grows hT'
    obtain ⟨s, h2, hop, hs2, hlt, hsym, hfu2⟩ := hsit.opens hf hwf.ne hdec hv hT hpos
    obtain ⟨h', s', ho⟩ := PairSitting.offers (decode := decode) hf hwf.ne hnd hw hv hd hs2 hlt hsym hT' (fun x hxx => (hx x hxx).2) (fun h' hh => by
      obtain ⟨more, f1, f2⟩ := hfu2.trans hh
      refine (C77_room hf (reach_append hr f1) ?_).1
      rw [List.map_append, List.sum_append]
      omega)
    obtain ⟨c1, c2⟩ := C97_chain (sort := sort) (fun l => (hsort l).1) hop ho (by rw [← List.map_dropLast, ← List.flatMap_def]; exact hshort) sent hfuel
    rw [← List.flatMap_def] at c1 c2
    refine ⟨c1, fun hl p hp => c2 hl p ?_⟩
    have htab : ∀ x ∈ m0.utf8, ∀ y ∈ m0.utf8, 1 ≤ T' x y := fun x hx y hy => by
      obtain ⟨m, _, hm⟩ := hsit.tallied.holds hT
      exact (hm.pos hx hy).trans (hd.grows x y)
    rcases hp with ⟨e, he, e1, rfl⟩ | ⟨hno, rfl⟩
    · exact .inl ((pairs_lists hwf.ne htab _ _ _).2 ⟨e, he, e1, rfl⟩)
    · refine .inr ⟨fun hm => ?_, rfl⟩
      obtain ⟨e, he, e1⟩ := List.mem_map.1 hm
      exact hno e he e1
  · obtain ⟨rep, h1, e1⟩ := hv.ask reqs h hr (decode ctx) (-1)
    have hrep := hsit.tallied.asks hf hT hsit.weights (decode ctx) (-1) hpos rep h1 e1
    rw [if_neg (by
      rintro ⟨_, hh⟩
      have : toInt32 (-1) = -1 := by decide
      omega)] at hrep
    have hlast : lastAt h (-1) (decode ctx) = (decode ctx).getLast?.getD 0 := by
      unfold lastAt
      cases (decode ctx).getLast? with
      | some c => rfl
      | none => simp only [show toInt32 (-1) < 0 by decide, if_true, Option.getD_none]
    rw [hlast] at hrep
    subst hrep
    obtain ⟨m, _, hm⟩ := hsit.tallied.holds hT
    have htab : ∀ x ∈ m0.utf8, ∀ y ∈ m0.utf8, 1 ≤ T x y := fun x hx y hy => hm.pos hx hy
    have hlen : (T.reply Arith.xr encode m0.utf8 ((decode ctx).getLast?.getD 0)).symbols.length = m0.utf8.length := by simp [Pairs.reply]
    obtain ⟨c1, c2⟩ := C97_kbest hsort e1 (pairs_norm hwf.ne htab _) (pairs_proper hwf.ne hnd hw htab _) random sent k
    rw [hlen] at c1 c2
    refine ⟨fun hk => ?_, c2⟩
    obtain ⟨l, w, l1, _, l2⟩ := c1 hk
    refine ⟨l, w, ⟨l1.length, l1.order, l1.distinct, fun x hx => (pairs_lists hwf.ne htab _ _ _).1 (l1.listed x hx), fun c hc hn x hx => ?_⟩, l2⟩
    exact l1.best _ _ ((pairs_lists hwf.ne htab _ _ _).2 ⟨c, hc, rfl, rfl⟩) hn x hx

end Mozolm.System
