import Verif.Props.Code
import Verif.System.ChanceSpec

/-!
# C83: the most likely continuations that the client prints
-/

namespace Mozolm.System
open Mozolm.Hub Mozolm.Server
open Mozolm.Ppm (Memory Learner)
variable {encode : Int → Str} {fuel : Nat} {o : Ppm.Options XR} {K : Nat} {M M0 : Memory} {m0 : Ppm.Model Arith.xr}
  {orderN : List (Int × Nat) → List (Int × Nat)} {orderV : List (Str × XR) → List (Str × XR)}
  {models : List (Component Arith.xr)} {cfg : HubConfig XR} {h : Hub Arith.xr (Component Arith.xr)}
  {sort : List (XR × Str) → List (XR × Str)} {decode : Str → List Int}

theorem Tells.likeliest (hd : Ppm.Dense m0.symbols m0.chars) (he : ∀ e ∈ m0.symbols, 0 < e.1 → e.2 ≠ []) (hsort : SortsFalling sort) {c : List Int}
    {r : LMScores XR} (h : Tells o m0.symbols m0.chars M c r) {k : Nat} (hk : k ≤ m0.chars + 1) :
    ∃ l : List (ℝ × Str), (sort (r.probs.zip r.symbols)).length = m0.chars + 1 ∧
      (sort (r.probs.zip r.symbols)).take k = l.map (fun x => (.fin x.1, x.2)) ∧ Likeliest o m0.symbols m0.chars M c k l := by
  obtain ⟨p, hp, hsum, h1, h2, _⟩ := h
  obtain ⟨hperm, hpair⟩ := hsort (r.probs.zip r.symbols)
  have hnd := told_nodup hd he
  have hlen : m0.symbols.length = m0.chars + 1 := by simpa using congrArg List.length hd.labels
  rw [h1, h2] at hperm hpair ⊢
  generalize hsy : ([] :: m0.symbols.tail.map Prod.snd : List Str) = syms at hperm hnd hpair ⊢
  have hl : syms.length = m0.chars + 1 := by rw [← hsy]; simp [hlen]
  have hzip : ∀ x ∈ ((List.range (m0.chars + 1)).map fun y => XR.fin (p y)).zip syms, ∃ y, y ≤ m0.chars ∧ syms[y]? = some x.2 ∧ x.1 = .fin (p y) := by
    intro x hx
    obtain ⟨y, hy⟩ := List.mem_iff_getElem?.1 hx
    rw [List.getElem?_zip_eq_some] at hy
    obtain ⟨a1, a2⟩ := hy
    have hyl : y < m0.chars + 1 := by have := lt_of_getElem?_eq_some a2; omega
    refine ⟨y, by omega, a2, ?_⟩
    rw [List.getElem?_map, List.getElem?_range hyl] at a1
    simpa using a1.symm
  have hpair' := hpair fun x hx => by
    obtain ⟨y, _, _, hy⟩ := hzip x hx
    exact ⟨_, hy⟩
  generalize hsc : sort (((List.range (m0.chars + 1)).map fun y => XR.fin (p y)).zip syms) = scores at hperm hpair' ⊢
  have hslen : scores.length = m0.chars + 1 := by simpa [hl] using hperm.length_eq
  have hsnd : (scores.map Prod.snd).Nodup := by
    refine (hperm.map Prod.snd).nodup_iff.2 ?_
    rw [List.map_snd_zip (by simp [hl])]; exact hnd
  obtain ⟨nums, hnums⟩ : ∃ nums : List (ℝ × Str), scores = nums.map fun x => (.fin x.1, x.2) := by
    have : ∀ l : List (XR × Str), (∀ x ∈ l, ∃ q : ℝ, x.1 = .fin q) → ∃ nums : List (ℝ × Str), l = nums.map fun x => (.fin x.1, x.2) := by
      intro l
      induction l with
      | nil => intro _; exact ⟨[], rfl⟩
      | cons x l ih =>
        intro hx
        obtain ⟨nums, rfl⟩ := ih fun y hy => hx y (by simp [hy])
        obtain ⟨q, hq⟩ := hx x (by simp)
        exact ⟨(q, x.2) :: nums, by rw [List.map_cons, ← hq]⟩
    refine this _ fun x hx => ?_
    obtain ⟨y, _, _, hy⟩ := hzip x (hperm.mem_iff.1 hx)
    exact ⟨_, hy⟩
  subst hnums
  rw [List.length_map] at hslen
  have hsnd' : (nums.map Prod.snd).Nodup := by rw [List.map_map] at hsnd; exact hsnd
  have hfall : nums.Pairwise fun a b => b.1 ≤ a.1 := by
    rw [List.pairwise_map] at hpair'
    refine hpair'.imp fun {a b} hab => ?_
    simp only [XR.lt, not_lt] at hab
    exact hab
  have htold : ∀ x ∈ nums, ∃ y, y ≤ m0.chars ∧ syms[y]? = some x.2 ∧ x.1 = p y := by
    intro x hx
    obtain ⟨y, a1, a2, a3⟩ := hzip (.fin x.1, x.2) (hperm.mem_iff.1 (List.mem_map.2 ⟨x, hx, rfl⟩))
    exact ⟨y, a1, a2, by simpa using a3⟩
  refine ⟨nums.take k, by rw [List.length_map]; exact hslen, by rw [List.map_take], ?_⟩
  refine ⟨by rw [List.length_take]; omega, hfall.sublist (List.take_sublist _ _), ?_, fun x hx => ?_, fun y sym q hy hs hn hq x hx => ?_⟩
  · rw [List.map_take]; exact hsnd'.sublist (List.take_sublist _ _)
  · obtain ⟨y, a1, a2, a3⟩ := htold x (List.mem_of_mem_take hx)
    rw [hsy]
    exact ⟨y, a1, a2, by rw [a3]; exact (hp y a1).2⟩
  · rw [hsy] at hs
    have hqq : q = p y := hq.unique (hp y hy).2
    have hm : (XR.fin (p y), sym) ∈ nums.map fun x => (XR.fin x.1, x.2) := by
      refine hperm.mem_iff.2 (List.mem_iff_getElem?.2 ⟨y, ?_⟩)
      rw [List.getElem?_zip_eq_some]
      have hylt : y < m0.chars + 1 := by omega
      simp [hs, hylt]
    obtain ⟨z, z1, z2⟩ := List.mem_map.1 hm
    simp only [Prod.mk.injEq, XR.fin.injEq] at z2
    have hz : z ∈ nums.drop k := by
      rw [← List.take_append_drop k nums] at z1
      rcases List.mem_append.1 z1 with hz | hz
      · exact absurd (List.mem_map.2 ⟨z, hz, z2.2⟩) hn
      · exact hz
    rw [← List.take_append_drop k nums, List.pairwise_append] at hfall
    rw [hqq, ← z2.1]
    exact hfall.2.2 x hx z hz

/-- **C83** The client asks a server in front of a PPM model that learns for the `k` most likely continuations of a text,
after any history of requests with room in the state table: the request is not refused and for `k` up to the number of
symbols those printed are the `k` most likely ones of the memory of the history, with their probabilities there, after a
known context that the text ends with (the beginning of string for no text). Nothing is learnt. For larger `k` the client
reads beyond the end of the list. -/
theorem C83_kbest (hl : Learner o K M0 m0) (hms : models.head? = some (.ppm m0)) (hs : ∀ m ∈ models, Served encode m)
    (hsy : ∀ e ∈ m0.symbols, 0 < e.1 → e.2 ≠ []) (hsort : SortsFalling sort) :
    ∃ bound, ∀ fuel, bound ≤ fuel → ∀ orderN orderV, (env Arith.xr encode fuel orderN orderV).Fair →
      ∀ (cfg : HubConfig XR) reqs h, (cfg.mixture = .interpolation → cfg.weights.length < 2) → cfg.maxStates < 2 ^ 31 →
        Server.Reach (env Arith.xr encode fuel orderN orderV) models cfg reqs h →
        ∃ (h0 : Hub Arith.xr (Component Arith.xr)) (M : Memory),
          initializeModels (env Arith.xr encode fuel orderN orderV) models cfg = .ok (some h0) ∧
          Taught (env Arith.xr encode fuel orderN orderV) K (Ppm.alphabet m0.symbols encode) h0 M0 reqs h M ∧
          ∀ ctx : Str, (∀ c ∈ decode ctx, 0 ≤ c) →
            1 + (reqs.map Request.symbols).sum + (decode ctx).length ≤ cfgMax (A := Arith.xr) cfg →
            ∀ (random : Nat → XR) (sent : List (Client.Rpc XR)),
            ∃ (c : List Int) (w' : Client.World XR (Hub Arith.xr (Component Arith.xr) × (Nat → XR))),
              M.known c ∧ c <+: (Ppm.alphabet m0.symbols encode).past (decode ctx) ∧ (decode ctx = [] → c = [0]) ∧
              AsksWell (env Arith.xr encode fuel orderN orderV) o (Ppm.alphabet m0.symbols encode) m0.symbols m0.chars M w'.srv.1 ∧
              (∀ k : Int, k ≤ m0.chars + 1 → ∃ l : List (ℝ × Str), Likeliest o m0.symbols m0.chars M c k.toNat l ∧
                Client.oneKbestSample (A := Arith.xr) (Client.Env.xr sort decode) (service (env Arith.xr encode fuel orderN orderV) decode)
                  ⟨(h, random), sent⟩ k ctx = .ok (some (l.map fun x => (.fin x.1, x.2)), w')) ∧
              (∀ k : Int, (m0.chars : Int) + 1 < k →
                Client.oneKbestSample (A := Arith.xr) (Client.Env.xr sort decode) (service (env Arith.xr encode fuel orderN orderV) decode)
                  ⟨(h, random), sent⟩ k ctx = .error .ub) := by
  obtain ⟨bound, hb⟩ := served_live hs
  have hm : 0 < models.length := by
    cases models with
    | nil => cases hms
    | cons => simp
  obtain ⟨bound', hb'⟩ := serving hs hm
  refine ⟨max bound bound', fun fuel hfu orderN orderV hf cfg reqs h hcfg hmx hr => ?_⟩
  have hw := weights_single hcfg
  obtain ⟨h0, M, ctxs, k1, k2, k3, k4, k5⟩ := ready_reach hf hl (hb fuel (by omega)) (j := 0) (by rw [← hms, List.head?_eq_getElem?]) (by omega) hr
  have hv := hb' fuel (by omega) orderN orderV hf cfg hcfg
  have hd := Learner.dense hl
  refine ⟨h0, M, k1, k2, fun ctx hpos hroom random sent => ?_⟩
  obtain ⟨rep, h1, e1⟩ := hv.ask reqs h hr (decode ctx) (-1)
  have hreach1 : Server.Reach (env Arith.xr encode fuel orderN orderV) models cfg (reqs ++ [.getLMScores (decode ctx) (-1)]) h1 :=
    reach_append hr (by simp only [Server.serveAll, Server.serve, e1, ok_bind])
  have hg : h1.selfRecycled = false := by
    refine (C77_room hf hreach1 ?_).1
    simp only [List.map_append, List.sum_append, List.map_cons, List.map_nil, List.sum_cons, List.sum_nil, Request.symbols]
    omega
  obtain ⟨r, c, rfl, a1, a2, a3, ht⟩ := k3.asks hf hl (by rw [k5]; omega) (decode ctx) hpos (-1) (by omega) (by omega) rep h1 e1 hg
  have hserve : Server.serve (env Arith.xr encode fuel orderN orderV) h (.getLMScores (decode ctx) (-1)) = .ok h1 := by
    simp only [Server.serve, e1, ok_bind]
  obtain ⟨M', ctxs', l1, l3⟩ := k3.serve hf hl.alpha hl.beta hl.initial hl.adaptive hserve
  have hM : M' = M := by cases l1; rfl
  subst hM
  have hw1 : h1.weights.length < 2 := by
    rw [(hreach1.good hf).const.weights]
    change (cfgWeights (A := Arith.xr) cfg).length < 2
    omega
  have htell := ht
  obtain ⟨_, _, _, _, _, N, q1, q2, _⟩ := ht
  have hscores : Client.getLMScores (A := Arith.xr) (Client.Env.xr sort decode) (service (env Arith.xr encode fuel orderN orderV) decode)
      ⟨(h, random), sent⟩ ctx (-1) = (some (sort (r.probs.zip r.symbols)), ⟨(h1, random), sent ++ [.lmScores ctx (-1) (some r)]⟩) := by
    simp only [Client.getLMScores, Client.getLMScore, service, show toInt32 (-1) = -1 by decide, e1, replied, htell.top hd, q1]
    rw [if_neg (by simp [XR.le, q2])]
    rfl
  refine ⟨c, ⟨(h1, random), sent ++ [.lmScores ctx (-1) (some r)]⟩, a1, a2, a3, l3.asks hf hl hw1, fun k hk => ?_, fun k hk => ?_⟩
  · obtain ⟨l, m1, m2, m3⟩ := htell.likeliest hd hsy hsort (k := k.toNat) (by omega)
    refine ⟨l, m3, ?_⟩
    simp only [Client.oneKbestSample, hscores]
    rw [Client.kbestLoop_ok _ _ _ (by omega), ok_bind, List.drop_zero, m2]
  · obtain ⟨l, m1, _⟩ := htell.likeliest hd hsy hsort (k := 0) (by omega)
    simp only [Client.oneKbestSample, hscores]
    rw [Client.kbestLoop_ub _ _ _ (by omega) (by omega)]
    rfl

end Mozolm.System
