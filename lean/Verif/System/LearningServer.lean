import Verif.System.Learning
import Verif.Server.Guard
import Verif.System.MemorySpec

/-!
# A server with a PPM component that learns: what a request makes of the memory
-/

namespace Mozolm.System
open Mozolm.Hub Mozolm.Server
open Mozolm.Ppm (Keeps Memory)
variable {encode : Int → Str} {fuel : Nat} {o : Ppm.Options XR} {K : Nat} {M : Memory} {ctxs : List (List Int)} {m0 m : Ppm.Model Arith.xr}
  {orderN : List (Int × Nat) → List (Int × Nat)} {orderV : List (Str × XR) → List (Str × XR)}
  {h h' : Hub Arith.xr (Component Arith.xr)} {j : Nat}

/-- What is known of a server with such a component. -/
structure Ready (encode : Int → Str) (fuel : Nat) (orderN : List (Int × Nat) → List (Int × Nat)) (orderV : List (Str × XR) → List (Str × XR))
    (K : Nat) (m0 : Ppm.Model Arith.xr) (j : Nat) (M : Memory) (ctxs : List (List Int)) (h : Hub Arith.xr (Component Arith.xr)) : Prop where
  own : Own (live encode fuel) ok h
  start : StartOK (genv encode fuel orderN orderV) h
  linked : Linked h
  weight : j < h.weights.length
  origins : Origins (live encode fuel) ok (Stems encode K m0) j h
  holds : HoldsAt encode K m0 j M ctxs h

theorem Ready.touches (hf : (env Arith.xr encode fuel orderN orderV).Fair) (ha : o.alpha ≠ .nan) (hb : o.beta ≠ .nan)
    (hi : Ppm.Initial Arith.xr Ppm.OkR o m0) (hs : o.static = false) (hr : Ready encode fuel orderN orderV K m0 j M ctxs h)
    (g : Good (genv encode fuel orderN orderV) h h') (ht : Touches (genv encode fuel orderN orderV).toLMOps h.models h'.models) :
    Ready encode fuel orderN orderV K m0 j M ctxs h' :=
  ⟨hr.own.good hf (closedOn _ _ _) g, g.pres _ _ (start_preserved hf.guard guard_start) hr.start,
    g.pres _ _ (linked_preserved hf.guard) hr.linked, by rw [g.const.weights]; exact hr.weight,
    g.pres _ _ (origins_preserved hf (stems_roots ha hb hi hs)) hr.origins, hr.holds.touches ha hb hi ht⟩

theorem extract_touches' {E : Env Arith.xr (Component Arith.xr)} {s : Int} {r : Option (LMScores XR)}
    (he : Hub.extractLMScores E h s = .ok (r, h')) : Touches E.toLMOps h.models h'.models := by
  obtain ⟨ms, ht, rfl⟩ := extract_states he
  exact ht

/-- One request. -/
theorem Ready.serve (hf : (env Arith.xr encode fuel orderN orderV).Fair) (ha : o.alpha ≠ .nan) (hb : o.beta ≠ .nan)
    (hi : Ppm.Initial Arith.xr Ppm.OkR o m0) (hs : o.static = false) (hr : Ready encode fuel orderN orderV K m0 j M ctxs h)
    {r : Request} (he : Server.serve (env Arith.xr encode fuel orderN orderV) h r = .ok h') :
    ∃ (M' : Memory) (ctxs' : List (List Int)), Learns K (Ppm.alphabet m0.symbols encode) h r M M' ∧
      Ready encode fuel orderN orderV K m0 j M' ctxs' h' := by
  have hc := closedOn Arith.xr encode fuel
  have hfg : (genv encode fuel orderN orderV).Fair := hf.guard
  rw [serve_guard hf hc hr.own] at he
  change Server.serve (genv encode fuel orderN orderV) h r = .ok h' at he
  cases r with
  | getNextState ctx s =>
    simp only [Server.serve] at he
    obtain ⟨⟨a, h1⟩, e1, e2⟩ := bind_ok.1 he
    cases e2
    obtain ⟨⟨c, h2⟩, e3, e4⟩ := bind_ok.1 e1
    cases e4
    simp only [contextState] at e3
    obtain ⟨_, _, e3', g, _⟩ := contextLoop_ok hfg hr.own.inv (if toInt32 s < 0 then 0 else toInt32 s) ctx
    rw [e3] at e3'; cases e3'
    exact ⟨M, ctxs, rfl, hr.touches hf ha hb hi hs g (Hub.contextLoop_touches hfg hr.own.inv e3)⟩
  | getLMScores ctx s =>
    simp only [Server.serve] at he
    obtain ⟨⟨a, h1⟩, e1, e2⟩ := bind_ok.1 he
    cases e2
    obtain ⟨⟨c, h2⟩, e3, e4⟩ := bind_ok.1 e1
    obtain ⟨⟨x, h3⟩, e5, e6⟩ := bind_ok.1 e4
    simp only [contextState] at e3
    obtain ⟨_, _, e3', g, _⟩ := contextLoop_ok hfg hr.own.inv (if toInt32 s < 0 then 0 else toInt32 s) ctx
    rw [e3] at e3'; cases e3'
    have hr2 := hr.touches hf ha hb hi hs g (Hub.contextLoop_touches hfg hr.own.inv e3)
    have hr3 := hr2.touches hf ha hb hi hs (extract_good hr2.own.inv e5) (extract_touches' e5)
    refine ⟨M, ctxs, rfl, ?_⟩
    cases x <;> (cases e6; exact hr3)
  | updateLMScores s cs n =>
    simp only [Server.serve] at he
    obtain ⟨⟨a, h1⟩, e1, e2⟩ := bind_ok.1 he
    cases e2
    obtain ⟨⟨w, h2⟩, e3, e4⟩ := bind_ok.1 e1
    obtain ⟨⟨u, h3⟩, e5, e6⟩ := bind_ok.1 e4
    obtain ⟨_, _, e3', g, ht, _⟩ := walk_ok hfg hr.own.inv (toInt32 s) cs
    rw [e3] at e3'; cases e3'
    have hr2 := hr.touches hf ha hb hi hs g ht
    obtain ⟨M', ctxs', k1, k2⟩ := update_memory hf ha hb hi hs hr2.own hr2.start hr2.holds hr2.weight e5
    have g3 := update_good hfg hr2.own.inv e5
    have hr3 : Ready encode fuel orderN orderV K m0 j M' ctxs' h3 :=
      ⟨hr2.own.good hf hc g3, g3.pres _ _ (start_preserved hfg guard_start) hr2.start,
        g3.pres _ _ (linked_preserved hfg) hr2.linked, by rw [g3.const.weights]; exact hr2.weight,
        g3.pres _ _ (origins_preserved hf (stems_roots ha hb hi hs)) hr2.origins, k2⟩
    refine ⟨M', ctxs', ?_, ?_⟩
    · rcases k1 with ⟨k, k'⟩ | ⟨_, c, k2, k3, k4⟩
      · refine .inl ⟨?_, k'⟩
        intro hv
        rw [Server.Good.valid g (valid_iff.2 hv)] at k; cases k
      · exact .inr ⟨c, k2, k3, k4⟩
    · cases u with
      | false =>
        simp only [Bool.false_eq_true, if_false, Except.ok.injEq, Prod.mk.injEq] at e6
        rw [← e6.2]; exact hr3
      | true =>
        simp only [if_true] at e6
        obtain ⟨⟨x, h4⟩, e8, e9⟩ := bind_ok.1 e6
        have hr4 := hr3.touches hf ha hb hi hs (extract_good hr3.own.inv e8) (extract_touches' e8)
        cases x <;> (cases e9; exact hr4)

/-- The entry `k` of the table holds the state of component `j` for the context `c`. -/
def NameAt (j : Nat) (ctxs : List (List Int)) (c : List Int) (h : Hub Arith.xr (Component Arith.xr)) (k : Nat) : Prop :=
  ∃ (kst : HubState XR) (q : Nat), h.states[k]? = some kst ∧ kst.modelState j = q ∧ ctxs[q]? = some c

theorem NameAt.unique {c d : List Int} {k : Nat} (h1 : NameAt j ctxs c h k) (h2 : NameAt j ctxs d h k) : c = d := by
  obtain ⟨st, q, a1, a2, a3⟩ := h1
  obtain ⟨st', q', b1, b2, b3⟩ := h2
  rw [a1] at b1; cases b1
  have : q = q' := by omega
  subst this
  rw [a3] at b3; cases b3; rfl

theorem Ready.zero (hr : Ready encode fuel orderN orderV K m0 j M ctxs h) : NameAt j ctxs [0] h 0 := by
  obtain ⟨st, x, e1, e2, e3⟩ := hr.holds.zero hr.start
  exact ⟨st, x, e1, e2, e3⟩

/-- Walking from a state: the states along the text are in the table. -/
theorem Ready.walk (hf : (env Arith.xr encode fuel orderN orderV).Fair) (ha : o.alpha ≠ .nan) (hb : o.beta ≠ .nan)
    (hi : Ppm.Initial Arith.xr Ppm.OkR o m0) (hs : o.static = false) (hr : Ready encode fuel orderN orderV K m0 j M ctxs h) {s : Nat} {cs : List Int}
    (hcs : ∀ c ∈ cs, 0 ≤ c) (hfit : Fits h s cs) {c : List Int} (hn : NameAt j ctxs c h s) {w : Int}
    (he : Server.walk (genv encode fuel orderN orderV) h s cs = .ok (w, h')) (hg : h'.selfRecycled = false) :
    ∃ t : Nat, w = t ∧ Ready encode fuel orderN orderV K m0 j M ctxs h' ∧ IsPath h' s cs t ∧ NameAt j ctxs c h' s ∧
      Good (genv encode fuel orderN orderV) h h' := by
  have hfg : (genv encode fuel orderN orderV).Fair := hf.guard
  obtain ⟨w', h1, e1, g, ht, _⟩ := walk_ok hfg hr.own.inv (s : Int) cs
  rw [he] at e1; cases e1
  have hr' := hr.touches hf ha hb hi hs g ht
  have hnn := hn
  obtain ⟨st, q, n1, n2, n3⟩ := hn
  have hslt := lt_of_getElem?_eq_some n1
  rw [walk_context hfg hr.own.inv hcs] at he
  have key : ∃ t : Nat, w = t ∧ IsPath h' s cs t ∧ (s ≠ 0 → ∃ st' : HubState XR, h'.states[s]? = some st' ∧ st'.modelStates = st.modelStates) := by
    rcases hfit with h1 | h1 | h1
    · match cs, h1 with
      | [], _ =>
        cases he
        exact ⟨s, rfl, rfl, fun _ => ⟨st, n1, rfl⟩⟩
      | [d], _ =>
        simp only [contextLoop] at he
        obtain ⟨⟨r1, h1⟩, e1, he⟩ := bind_ok.1 he
        obtain ⟨g1, o1⟩ := nextState_good hfg hr.own.inv e1
        obtain ⟨k, rfl, _, hk, _, sst, s1, s2⟩ := o1.range hfg hr.own.inv (hcs d (by simp))
        have hsrc : source h (s : Int) = s := by
          have := source_valid (h := h) (s := (s : Int)) (by omega) (by omega)
          omega
        rw [hsrc] at s1
        simp only [if_neg (show ¬ ((k : Int) < 0) by omega), Except.ok.injEq, Prod.mk.injEq] at he
        obtain ⟨rfl, rfl⟩ := he
        refine ⟨k, rfl, ⟨sst, k, s1, s2, rfl⟩, fun hs0 => ?_⟩
        cases o1 with
        | cached _ st' k' hst hk' => exact ⟨st, n1, rfl⟩
        | new hc st' hst hk' =>
          have hto := nextAll_touches (genv encode fuel orderN orderV).toLMOps st' d 0 h.models
          have hi' := hr.own.inv.setModels hto.length_eq.symm
          have hfr := bayesed_frame (genv encode fuel orderN orderV) (createdFrom (genv encode fuel orderN orderV) h (source h s) st' d) (victim h)
          have hgv : victim h ≠ source h s := by
            have : (createdFrom (genv encode fuel orderN orderV) h (source h s) st' d).selfRecycled = false := by
              rw [← hfr.ghost]; exact hg
            simp only [createdFrom, created, Bool.or_eq_false_iff, beq_eq_false_iff_ne] at this
            exact this.2
          have hne : s ≠ victim { h with models := (nextAll (genv encode fuel orderN orderV).toLMOps st' d 0 h.models).2 } := by
            show s ≠ victim h
            rw [hsrc] at hgv
            exact fun e => hgv e.symm
          obtain ⟨st2, e1, _, e3, _⟩ := created_other (env := genv encode fuel orderN orderV)
            (ms := (nextAll (genv encode fuel orderN orderV).toLMOps st' d 0 h.models).1) hfg hi' hst hk' hne n1
          rw [kept_ne_start (fun x => hs0 x.1)] at e3
          obtain ⟨st3, g1, _, _, _, g5⟩ := hfr.symm_st e1
          exact ⟨st3, g1, g5.trans e3⟩
      | _ :: _ :: _, h1 => simp at h1
    · obtain ⟨t, h1, f1, _, f3, f4, _⟩ := contextLoop_room hfg hr.own.inv hslt hcs h1
      rw [he] at f1; cases f1
      obtain ⟨st', k1, k2, _⟩ := f3 s st n1
      exact ⟨t, rfl, f4, fun _ => ⟨st', k1, k2⟩⟩
    · obtain ⟨t, h1, f1, _, f3, f4, _⟩ := contextLoop_turns hfg hr.own.inv hslt hcs h1
      rw [he] at f1; cases f1
      obtain ⟨st', k1, k2, _⟩ := f3 s st n1 (by omega)
      exact ⟨t, rfl, f4, fun _ => ⟨st', k1, k2⟩⟩
  obtain ⟨t, k1, k2, k3⟩ := key
  refine ⟨t, k1, hr', k2, ?_, g⟩
  by_cases hs0 : s = 0
  · subst hs0
    rw [hnn.unique hr.zero]
    exact hr'.zero
  · obtain ⟨st', l1, l2⟩ := k3 hs0
    exact ⟨st', q, l1, by simp only [HubState.modelState, l2]; exact n2, n3⟩

/-- Counting along a cached path: afterwards the states along it are the right ones. -/
theorem Ready.learn (hf : (env Arith.xr encode fuel orderN orderV).Fair) (ha : o.alpha ≠ .nan) (hb : o.beta ≠ .nan)
    (hi : Ppm.Initial Arith.xr Ppm.OkR o m0) (hs : o.static = false) (hr : Ready encode fuel orderN orderV K m0 j M ctxs h)
    (hg : h.selfRecycled = false) {s t : Nat} {cs : List Int} (hp : IsPath h s cs t) {c : List Int} (hn : NameAt j ctxs c h s)
    {n : Int} {u : Bool} (he : updateLMCounts (genv encode fuel orderN orderV) h s cs n = .ok (u, h')) :
    ∃ (M' : Memory) (new : List (List Int)), M' = (if 0 < n then M.learn K (Ppm.alphabet m0.symbols encode) n.toNat c cs else M) ∧
      u = true ∧ Ready encode fuel orderN orderV K m0 j M' (ctxs ++ new) h' ∧ h'.selfRecycled = false ∧
      Good (genv encode fuel orderN orderV) h h' ∧ IsPath h' s cs t ∧
      ∀ pre post, cs = pre ++ post → ∃ k : Nat, IsPath h' s pre k ∧
        NameAt j (ctxs ++ new) (M'.longest ((pre.map (Ppm.typedLabel m0.symbols encode)).reverse ++ c)) h' k := by
  obtain ⟨st, x, hst, hx, hc⟩ := hn
  have hcl := closedOn Arith.xr encode fuel
  have hfg : (genv encode fuel orderN orderV).Fair := hf.guard
  have gall := update_good hfg hr.own.inv he
  have hlt := lt_of_getElem?_eq_some hst
  have hv : h.valid (s : Int) = true := by
    simp only [Hub.valid, Bool.and_eq_true, decide_eq_true_eq]; omega
  simp only [updateLMCounts, ensureStates_path hp, ok_bind, hv, if_true, Int.toNat_natCast] at he
  obtain ⟨h2, e2, he⟩ := bind_ok.1 he
  have hkeep : Good (genv encode fuel orderN orderV) h h2 ∧ Keep h h2 ∧ h2.selfRecycled = false ∧
      Touches (genv encode fuel orderN orderV).toLMOps h.models h2.models := by
    split at e2
    · obtain ⟨h2', e2', f2, g2⟩ := historyLoop_path hfg hr.own.inv hp
      rw [e2] at e2'; cases e2'
      exact ⟨g2, f2.keep, f2.ghost.trans hg, historyLoop_touches hfg hr.own.inv e2⟩
    · cases e2; exact ⟨Good.refl hr.own.inv, Keep.refl _, hg, Touches.refl _ _⟩
  obtain ⟨g2, k2, hg2, t2⟩ := hkeep
  have hr2 := hr.touches hf ha hb hi hs g2 t2
  obtain ⟨st2, hst2, hms, _⟩ := k2 s st hst
  rw [hst2] at he
  simp only at he
  obtain ⟨⟨b, ms⟩, e3, he⟩ := bind_ok.1 he
  have hb3 := loop_accepted hr2.own hst2 e3
  subst hb3
  simp only [if_true] at he
  have hx2 : st2.modelState j = x := by
    simp only [HubState.modelState, hms]; exact hx
  obtain ⟨m', new, q1, q2⟩ := loop_learns ha hb hi hs hr2.own hr2.holds hst2 hx2 hc hr2.weight e3
  have g3 : Good (genv encode fuel orderN orderV) h2 { h2 with models := ms } :=
    Good.setModels hr2.own.inv (updateLoop_touches _ _ _ _ _ e3)
  generalize (if 0 < n then M.learn K (Ppm.alphabet m0.symbols encode) n.toNat c cs else M) = M' at q2
  have ho3 : Own (live encode fuel) ok { h2 with models := ms } := hr2.own.good hf hcl g3
  have hcx : (ctxs ++ new)[x]? = some c := by
    rw [List.getElem?_append_left (lt_of_getElem?_eq_some hc)]; exact hc
  have hp3 : IsPath ({ h2 with models := ms } : Hub Arith.xr (Component Arith.xr)) s cs t := by
    exact IsPath.keep (h := h2) (h' := { h2 with models := ms }) (fun i ist e => ⟨ist, e, rfl, rfl, rfl, fun _ _ y => y⟩) (hp.keep k2)
  obtain ⟨h4, x4, f1, f2, f3, f4, f5, f6, f7⟩ := verifyLoop_points hf (at_points (K := K) ha hb hi M' (ctxs ++ new) c) j
    (h := { h2 with models := ms }) ho3 (g3.pres _ _ (linked_preserved hfg) hr2.linked) hg2 hst2 hp3 q1
    (p := []) ⟨m', x, rfl, q2, hx2, by
      rw [List.map_nil, List.reverse_nil, List.nil_append, M'.longest_self q2.grounded.nil (q2.holds.known hcx)]; exact hcx⟩
  change verifyLoop (genv encode fuel orderN orderV) { h2 with models := ms } s cs = _ at f1
  rw [f1] at he
  cases he
  have hg4 : h'.selfRecycled = false := (verifyLoop_few f1).2.trans hg2
  obtain ⟨m4, rfl, k4⟩ := keeps_touch ha hb hi f5 q2
  refine ⟨M', new, rfl, rfl, ⟨ho3.good hf hcl f2, (g3.trans f2).pres _ _ (start_preserved hfg guard_start) hr2.start,
    (g3.trans f2).pres _ _ (linked_preserved hfg) hr2.linked, by rw [(g3.trans f2).const.weights]; exact hr2.weight,
    (g3.trans f2).pres _ _ (origins_preserved hf (stems_roots ha hb hi hs)) hr2.origins, m4, f4, k4⟩,
    hg4, gall, f6, fun pre post e => ?_⟩
  obtain ⟨k, kst, p1, p2, mm, q, _, _, p3, p4⟩ := f7 pre post e
  rw [List.nil_append] at p4
  exact ⟨k, p1, kst, q, p2, p3, p4⟩

/-! ## Replies -/

open scoped BigOperators

theorem keeps_tells (ha : o.alpha ≠ .nan) (hb : o.beta ≠ .nan) (hi : Ppm.Initial Arith.xr Ppm.OkR o m0) (ht : Ppm.Totals m0.core.fst m0.chars)
    (h : Keeps encode K M ctxs m0 m) {x : Nat} {c : List Int} (hx : ctxs[x]? = some c) :
    ∃ (r : LMScores XR) (m' : Ppm.Model Arith.xr), extract encode fuel (.ppm m) (x : Int) = (some r, .ppm m') ∧
      Tells o m0.symbols m0.chars M c r := by
  obtain ⟨ord, u, hinv, hsym, _⟩ := h.inv ha hb hi
  obtain ⟨tr, hr⟩ := h.run
  obtain ⟨hch, _⟩ := Ppm.C22_totals ha hb hi ht hr
  obtain ⟨p, N, r, m', l1, l2, l3, l4, l5, l6, l7⟩ := Ppm.C23_scores ha hb hi ht hr (h.holds.lt hx)
  obtain ⟨ord0, u0, i0, hd0, _⟩ := hi.known (Ppm.laws_of o ha hb)
  have hlen : m.symbols.length = m0.chars + 1 := by
    rw [hsym]
    have := congrArg List.length hd0.labels
    simpa using this
  rw [hlen] at l3 l5 l6
  rw [hch] at l5 l7
  have hnorm := h.holds.norm h.grounded l7 hx
  refine ⟨r, m', by simp only [extract, l1, settle], p, fun y hy => ?_, l6, by rw [l2, hsym], l3, N, l4,
    hnorm.pos (Ppm.effective_range o.alpha (d := 1/2) (by norm_num) (by norm_num)).1.le (h.grounded.all 0 (by omega)), hnorm⟩
  obtain ⟨q1, q2⟩ := l5 y (by omega)
  exact ⟨q1, h.holds.prob h.grounded hy q2 hx⟩

/-- What the hub says at a named entry, with one model. -/
theorem Ready.tells (ha : o.alpha ≠ .nan) (hb : o.beta ≠ .nan)
    (hi : Ppm.Initial Arith.xr Ppm.OkR o m0) (ht : Ppm.Totals m0.core.fst m0.chars)
    (hr : Ready encode fuel orderN orderV K m0 0 M ctxs h) (hw : h.weights.length < 2) {k : Nat} {c : List Int} (hn : NameAt 0 ctxs c h k) :
    ∃ (r : LMScores XR) (h' : Hub Arith.xr (Component Arith.xr)), Hub.extractLMScores (genv encode fuel orderN orderV) h k = .ok (some r, h') ∧
      Tells o m0.symbols m0.chars M c r := by
  obtain ⟨st, x, e1, e2, e3⟩ := hn
  obtain ⟨m, h1, h2⟩ := hr.holds
  obtain ⟨r, m', k1, k2⟩ := keeps_tells (fuel := fuel) ha hb hi ht h2 e3
  have hlt := lt_of_getElem?_eq_some e1
  have hv : h.valid (k : Int) = true := by
    simp only [Hub.valid, Bool.and_eq_true, decide_eq_true_eq]; omega
  cases hm : h.models with
  | nil => rw [hm] at h1; cases h1
  | cons y ms =>
    rw [hm] at h1
    cases h1
    refine ⟨r, { h with models := .ppm m' :: ms }, ?_, k2⟩
    rw [← hr.own.extract (env := env Arith.xr encode fuel orderN orderV)]
    simp only [Hub.extractLMScores, hv, Bool.not_true, Bool.false_eq_true, if_false, Int.toNat_natCast, e1, hw, if_true, hm, e2]
    change Except.ok ((extract encode fuel (.ppm m) (x : Int)).1, _) = _
    simp only [env, ops, k1]

/-- **The update request** at an entry named `c`. -/
theorem Ready.update (hf : (env Arith.xr encode fuel orderN orderV).Fair) (ha : o.alpha ≠ .nan) (hb : o.beta ≠ .nan)
    (hi : Ppm.Initial Arith.xr Ppm.OkR o m0) (hs : o.static = false) (hr : Ready encode fuel orderN orderV K m0 j M ctxs h)
    {x : Int} {s : Nat} (hx : toInt32 x = s) {cs : List Int} (hcs : ∀ c ∈ cs, 0 ≤ c) (hfit : Fits h s cs) {c : List Int}
    (hn : NameAt j ctxs c h s) {n : Int} {rep : Reply (LMScores XR)}
    (he : Server.updateLMScores (env Arith.xr encode fuel orderN orderV) h x cs n = .ok (rep, h')) (hg : h'.selfRecycled = false) :
    ∃ (M' : Memory) (new : List (List Int)), M' = (if 0 < n then M.learn K (Ppm.alphabet m0.symbols encode) n.toNat c cs else M) ∧
      Ready encode fuel orderN orderV K m0 j M' (ctxs ++ new) h' ∧ h'.weights = h.weights ∧
      (∀ pre post, cs = pre ++ post → ∃ k : Nat, IsPath h' s pre k ∧
        NameAt j (ctxs ++ new) (M'.longest ((pre.map (Ppm.typedLabel m0.symbols encode)).reverse ++ c)) h' k) ∧
      (j = 0 → h.weights.length < 2 → Ppm.Totals m0.core.fst m0.chars → ∃ r, rep = .ok r ∧
        Tells o m0.symbols m0.chars M' (M'.longest ((cs.map (Ppm.typedLabel m0.symbols encode)).reverse ++ c)) r) := by
  have hc := closedOn Arith.xr encode fuel
  have hfg : (genv encode fuel orderN orderV).Fair := hf.guard
  rw [updateLMScores_guard hf hc hr.own] at he
  change Server.updateLMScores (genv encode fuel orderN orderV) h x cs n = .ok (rep, h') at he
  obtain ⟨⟨w, h1⟩, e1, e2⟩ := bind_ok.1 he
  obtain ⟨⟨u, h2⟩, e3, e4⟩ := bind_ok.1 e2
  rw [hx] at e1 e3
  obtain ⟨_, _, e1', g1, _⟩ := walk_ok hfg hr.own.inv (s : Int) cs
  rw [e1] at e1'; cases e1'
  have g2 := update_good hfg g1.inv e3
  have hg2 : Good (genv encode fuel orderN orderV) h2 h' := by
    cases u with
    | false =>
      simp only [Bool.false_eq_true, if_false, Except.ok.injEq, Prod.mk.injEq] at e4
      rw [← e4.2]; exact Good.refl g2.inv
    | true =>
      simp only [if_true] at e4
      obtain ⟨⟨y, h4⟩, e8, e9⟩ := bind_ok.1 e4
      have := extract_good g2.inv e8
      cases y <;> (cases e9; exact this)
  have hgh1 : h1.selfRecycled = false := ghost_false (g2.trans hg2) hg
  obtain ⟨t, rfl, hr1, hp1, hn1, -⟩ := hr.walk hf ha hb hi hs hcs hfit hn e1 hgh1
  obtain ⟨M', new, hM, rfl, hr2, hgh2, -, hp2, hall⟩ := hr1.learn hf ha hb hi hs hgh1 hp1 hn1 e3
  simp only [if_true] at e4
  obtain ⟨⟨y, h4⟩, e8, e9⟩ := bind_ok.1 e4
  have hr4 := hr2.touches hf ha hb hi hs (extract_good hr2.own.inv e8) (extract_touches' e8)
  obtain ⟨ms, _, hms⟩ := extract_states e8
  have e94 : h4 = h' ∧ rep = (match y with | some r => .ok r | none => .invalidArgument) := by
    cases y <;> (cases e9; exact ⟨rfl, rfl⟩)
  obtain ⟨rfl, hrep⟩ := e94
  refine ⟨M', new, hM, hr4, by rw [(hg2).const.weights, g2.const.weights, g1.const.weights], fun pre post e => ?_, ?_⟩
  · obtain ⟨k, p1, st, q, p2, p3, p4⟩ := hall pre post e
    refine ⟨k, ?_, st, q, by rw [hms]; exact p2, p3, p4⟩
    rw [hms]
    exact IsPath.keep (h := h2) (h' := { h2 with models := ms }) (fun i ist e => ⟨ist, e, rfl, rfl, rfl, fun _ _ y => y⟩) p1
  · rintro rfl hw ht
    obtain ⟨k, p1, p2⟩ := hall cs [] (by simp)
    have hkt : k = t := by
      have a := contextLoop_path (env := genv encode fuel orderN orderV) p1
      rw [contextLoop_path (env := genv encode fuel orderN orderV) hp2] at a
      simp only [Except.ok.injEq, Prod.mk.injEq, and_true] at a
      omega
    subst hkt
    obtain ⟨r, h5, q1, q2⟩ := hr2.tells ha hb hi ht (by rw [g2.const.weights, g1.const.weights]; exact hw) p2
    rw [e8] at q1; cases q1
    exact ⟨r, hrep, q2⟩

end Mozolm.System
