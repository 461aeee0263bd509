import Verif.Hub.Refresh
import Verif.Props.Server

/-!
# C75: counting a text brings the adaptive mixture weights along it up to date
-/

namespace Mozolm.Hub
open Server (walk_ensure walk_context ghost_false initial_linked)
variable {A : Arith} {σ : Type} {env : Env A σ} {models : List σ} {cfg : HubConfig A.C} {calls : List Call}
  {h h' : Hub A σ}

theorem IsPath.split {h : Hub A σ} {s t : Nat} {pre post : List Int} (hp : IsPath h s (pre ++ post) t) :
    ∃ k, IsPath h s pre k ∧ IsPath h k post t := by
  induction pre generalizing s with
  | nil => exact ⟨s, rfl, hp⟩
  | cons c pre ih =>
    obtain ⟨st, k, e1, e2, e3⟩ := hp
    obtain ⟨k', a, b⟩ := ih e3
    exact ⟨k', ⟨st, k, e1, e2, a⟩, b⟩

theorem IsPath.unique {h : Hub A σ} {s t t' : Nat} {cs : List Int} (hp : IsPath h s cs t) (hp' : IsPath h s cs t') :
    t = t' := by
  induction cs generalizing s with
  | nil => exact hp.symm.trans hp'
  | cons c cs ih =>
    obtain ⟨st, k, e1, e2, e3⟩ := hp
    obtain ⟨st', k', f1, f2, f3⟩ := hp'
    rw [e1] at f1; cases f1
    rw [e2] at f2; cases f2
    exact ih e3 f3

theorem context_path {h : Hub A σ} {s t : Nat} {cs : List Int} (hp : IsPath h s cs t) :
    contextState env h cs s = .ok ((t : Int), h) := by
  simp only [contextState]
  rw [if_neg (by omega)]
  exact contextLoop_path hp

/-- What `UpdateLMCounts` does to the histories, with the walk along the text given. -/
theorem update_refresh (hf : env.Fair) (hlk : Linked h) (hpos : 0 < h.hlen) {k t : Nat}
    (hk : k < h.states.length) {cs : List Int} {h1 : Hub A σ} (e1 : ensureStates env h k cs = .ok h1)
    (g1 : Good env h h1) (p1 : IsPath h1 k cs t) {n : Int} {r : Bool}
    (he : updateLMCounts env h k cs n = .ok (r, h')) (hg : h'.selfRecycled = false) :
    (∃ st1 st : HubState A.C, h1.states[k]? = some st1 ∧ h'.states[k]? = some st ∧ st.hist = st1.hist ∧
      st.histSum = st1.histSum) ∧
    ∀ pre post, cs = pre ++ post → post ≠ [] → ∃ (p : Nat) (pst1 pst : HubState A.C), IsPath h1 k pre p ∧
      IsPath h' k pre p ∧ h1.states[p]? = some pst1 ∧ h'.states[p]? = some pst ∧ pst.nexts = pst1.nexts ∧
      ∀ c q, HubState.lookup pst.nexts c = some q → ∃ qst : HubState A.C, h'.states[q]? = some qst ∧
        ∀ (j : Nat) (m : σ), h1.models[j]? = some m → ∃ m' row, Touch env.toLMOps m m' ∧ pst.hist[j]? = some row ∧
          qst.hist[j]? = some (lastN h.hlen (row ++ [(env.symScore m' (pst1.modelState j) c).1])) ∧
          qst.histSum[j]? = some (rowSum A (lastN h.hlen (row ++ [(env.symScore m' (pst1.modelState j) c).1]))) := by
  have hva : h.valid (k : Int) = true := by
    simp only [Hub.valid, Bool.and_eq_true, decide_eq_true_eq]; omega
  have hl1 : h1.hlen = h.hlen := g1.const.hlen
  simp only [updateLMCounts, e1, ok_bind, hva, if_true, hl1, if_pos hpos] at he
  obtain ⟨h2, e2, he⟩ := bind_ok.1 he
  obtain ⟨_, e2', f2, g2⟩ := historyLoop_path (env := env) hf g1.inv p1
  rw [e2] at e2'; cases e2'
  split at he
  · cases he
  · next st hst =>
    have hst : h2.states[k]? = some st := hst
    obtain ⟨⟨b, ms⟩, e3, he⟩ := bind_ok.1 he
    have gm : Good env h2 { h2 with models := ms } := Good.setModels g2.inv (updateLoop_touches _ _ _ _ _ e3)
    -- the remaining calls leave the histories and transitions alone
    have hrows : ∀ (i : Nat) (ist : HubState A.C), h2.states[i]? = some ist → ∃ ist' : HubState A.C,
        h'.states[i]? = some ist' ∧ ist'.hist = ist.hist ∧ ist'.histSum = ist.histSum ∧ ist'.nexts = ist.nexts := by
      intro i ist hist
      split at he
      · exact verifyLoop_rows he i ist hist
      · simp only [Except.ok.injEq, Prod.mk.injEq] at he
        rw [← he.2]
        exact ⟨ist, hist, rfl, rfl, rfl⟩
    have hg2 : h2.selfRecycled = false := by
      split at he
      · obtain ⟨_, _, ev, gv⟩ := verifyLoop_ok (env := env) gm.inv (lt_of_getElem?_eq_some (l := h2.states) hst) cs
        have he : verifyLoop env { h2 with models := ms } k cs = .ok (r, h') := he
        rw [he] at ev; cases ev
        exact (ghost_false gv hg : _)
      · simp only [Except.ok.injEq, Prod.mk.injEq] at he
        rw [← he.2] at hg
        exact hg
    have hg1 : h1.selfRecycled = false := by rw [← f2.ghost]; exact hg2
    have hlk1 := g1.pres _ _ (linked_preserved hf) hlk
    obtain ⟨c1, c2⟩ := historyLoop_refresh hf g1.inv hlk1 hg1 (by rw [hl1]; exact hpos) p1 e2
    have hpath : ∀ {pre : List Int} {p : Nat}, IsPath h1 k pre p → IsPath h' k pre p := by
      intro pre p hp
      have hp2 := IsPath.keep f2.keep hp
      clear hp
      revert hp2
      generalize k = s
      intro hp2
      induction pre generalizing s with
      | nil => exact hp2
      | cons c pre ih =>
        obtain ⟨sst, q, a1, a2, a3⟩ := hp2
        obtain ⟨sst', b1, _, _, b4⟩ := hrows s sst a1
        exact ⟨sst', q, b1, by rw [b4]; exact a2, ih q a3⟩
    constructor
    · obtain ⟨st1, d1⟩ := exists_getElem?_of_lt (l := h1.states) (i := k) (by
        have := lt_of_getElem?_eq_some hst; rw [f2.len] at this; exact this)
      have := c1 k (fun p pst c hp hm => turnsLeft_edge g1.inv hlk1 hg1 hp hm)
      rw [d1] at this
      obtain ⟨st', d2, d3, d4, _⟩ := hrows k st1 this
      exact ⟨st1, st', d1, d2, d3, d4⟩
    · intro pre post e hne
      obtain ⟨p, pst2, q1, q2, q3⟩ := c2 pre post e hne
      obtain ⟨pst1, a1, a2, _, _, a5⟩ := f2.st p pst2 q2
      obtain ⟨pst, b1, b2, b3, b4⟩ := hrows p pst2 q2
      refine ⟨p, pst1, pst, q1, hpath q1, a1, b1, b4.trans a2, fun c q hq => ?_⟩
      rw [b4] at hq
      obtain ⟨qst2, r1, r2⟩ := q3 c q (lookup_mem hq)
      obtain ⟨qst, s1, s2, s3, _⟩ := hrows q qst2 r1
      refine ⟨qst, s1, fun j m hm => ?_⟩
      obtain ⟨m', row, u1, u2, u3, u4⟩ := r2 j m hm
      have hrow : row.length = h.hlen := by
        have h0 := (g2.inv.st _ pst2 q2).hist (by rw [f2.hlen, hl1]; exact hpos)
        rw [h0.2.2 row (List.mem_of_getElem? u2), f2.hlen, hl1]
      have hms : pst2.modelState j = pst1.modelState j := by simp [HubState.modelState, a5]
      have hpush : ∀ x, row.tail ++ [x] = lastN h.hlen (row ++ [x]) := by
        intro x
        have := lastN_push (n := h.hlen) hpos (l := row) (by omega) x
        rw [← this]
        simp [lastN, hrow]
      rw [hms, hpush] at u3 u4
      exact ⟨m', row, u1, by rw [b2]; exact u2, by rw [s2]; exact u3, by rw [s3]; exact u4⟩

/-- **C75** With adaptive (Bayesian) mixture weights: when a text is counted at an existing state, the history of
every known successor of every state along the text – the text's own and those of all its one-character
variations – is the history of the state it follows with the cost each component gives the character *now*
(that is, before this update's counts) appended, cut to the configured length.  The history at the requested
state itself stays.  `h1` is the hub had the text only been asked about. -/
theorem C75_refreshed (hf : env.Fair) (hr : Reach env models cfg calls h) (hpos : 0 < h.hlen) {k : Nat}
    (hk : k < h.states.length) {cs : List Int} (hcs : ∀ c ∈ cs, 0 ≤ c)
    (hroom : h.states.length + cs.length ≤ h.max ∨ cs.length < h.turnsLeft k) {n : Int} {r : Bool}
    (he : updateLMCounts env h k cs n = .ok (r, h')) (hg : h'.selfRecycled = false) :
    ∃ (t : Nat) (h1 : Hub A σ), contextState env h cs k = .ok ((t : Int), h1) ∧
      (∃ st1 st : HubState A.C, h1.states[k]? = some st1 ∧ h'.states[k]? = some st ∧ st.hist = st1.hist ∧
        st.histSum = st1.histSum) ∧
      ∀ pre post, cs = pre ++ post → post ≠ [] → ∃ (p : Nat) (pst1 pst : HubState A.C),
        contextState env h1 pre k = .ok ((p : Int), h1) ∧ contextState env h' pre k = .ok ((p : Int), h') ∧
        h1.states[p]? = some pst1 ∧ h'.states[p]? = some pst ∧ pst.nexts = pst1.nexts ∧
        ∀ c q, HubState.lookup pst.nexts c = some q → ∃ qst : HubState A.C, h'.states[q]? = some qst ∧
          ∀ (j : Nat) (m : σ), h1.models[j]? = some m → ∃ m' row, Touch env.toLMOps m m' ∧ pst.hist[j]? = some row ∧
            qst.hist[j]? = some (lastN h.hlen (row ++ [(env.symScore m' (pst1.modelState j) c).1])) ∧
            qst.histSum[j]? = some (rowSum A (lastN h.hlen (row ++ [(env.symScore m' (pst1.modelState j) c).1]))) := by
  have g := reach_good hf hr
  have hwalk : ∃ (t : Nat) (h1 : Hub A σ), contextLoop env h k cs = .ok ((t : Int), h1) ∧ Good env h h1 ∧
      IsPath h1 k cs t := by
    rcases hroom with hroom | hroom
    · obtain ⟨t, h1, a, b, _, c, _⟩ := contextLoop_room hf g.inv hk hcs hroom
      exact ⟨t, h1, a, b, c⟩
    · obtain ⟨t, h1, a, b, _, c, _⟩ := contextLoop_turns hf g.inv hk hcs hroom
      exact ⟨t, h1, a, b, c⟩
  obtain ⟨t, h1, e0, g1, p1⟩ := hwalk
  have e1 : ensureStates env h k cs = .ok h1 := by
    rw [walk_ensure, walk_context hf g.inv hcs, e0]; rfl
  obtain ⟨c1, c2⟩ := update_refresh hf (g.pres _ _ (linked_preserved hf) (initial_linked models _ _ _)) hpos hk e1
    g1 p1 he hg
  refine ⟨t, h1, ?_, c1, fun pre post e hne => ?_⟩
  · simp only [contextState]
    rw [if_neg (by omega)]
    exact e0
  · obtain ⟨p, pst1, pst, a1, a2, a3, a4, a5, a6⟩ := c2 pre post e hne
    exact ⟨p, pst1, pst, context_path a1, context_path a2, a3, a4, a5, a6⟩

/-- **C75** (along the text) The history of the state reached by the text, and by each of its beginnings, is that
of the requested state followed by the costs the components give, as they stand before this update's counts, to
the characters one after the other, cut to the configured length. -/
theorem C75_text {live : σ → Prop} {ok : σ → Int → Prop} (hf : env.Fair) (hst : env.toLMOps.Steady live ok)
    (hlv : ∀ m ∈ models, live m) (hr : Reach env models cfg calls h) (hpos : 0 < h.hlen) {k : Nat}
    (hk : k < h.states.length) {cs : List Int} (hcs : ∀ c ∈ cs, 0 ≤ c)
    (hroom : h.states.length + cs.length ≤ h.max ∨ cs.length < h.turnsLeft k) {n : Int} {r : Bool}
    (he : updateLMCounts env h k cs n = .ok (r, h')) (hg : h'.selfRecycled = false) :
    ∃ (t : Nat) (h1 : Hub A σ) (kst : HubState A.C), contextState env h cs k = .ok ((t : Int), h1) ∧
      h1.states[k]? = some kst ∧
      ∀ len, 0 < len → len ≤ cs.length → ∃ (q : Nat) (qst : HubState A.C),
        contextState env h' (cs.take len) k = .ok ((q : Int), h') ∧ h'.states[q]? = some qst ∧
        ∀ (j : Nat) (m : σ), h1.models[j]? = some m → ∃ row costs, kst.hist[j]? = some row ∧ costs.length = len ∧
          (∀ (i : Nat) c x, cs[i]? = some c → costs[i]? = some x → ∃ (p : Nat) (pst : HubState A.C),
            contextState env h1 (cs.take i) k = .ok ((p : Int), h1) ∧ h1.states[p]? = some pst ∧
            x = (env.symScore m (pst.modelState j) c).1) ∧
          qst.hist[j]? = some (lastN h.hlen (row ++ costs)) ∧
          qst.histSum[j]? = some (rowSum A (lastN h.hlen (row ++ costs))) := by
  have hc := hst.closed
  have ho := reach_own hf hc hlv hr
  have hr' := (reach_guard hf hc hlv cfg calls h).1 hr
  have g := reach_good hf.guard hr'
  rw [ho.update hf hc] at he
  have hwalk : ∃ (t : Nat) (h1 : Hub A σ), contextLoop (env.guard live ok) h k cs = .ok ((t : Int), h1) ∧
      Good (env.guard live ok) h h1 ∧ IsPath h1 k cs t := by
    rcases hroom with hroom | hroom
    · obtain ⟨t, h1, a, b, _, c, _⟩ := contextLoop_room hf.guard g.inv hk hcs hroom
      exact ⟨t, h1, a, b, c⟩
    · obtain ⟨t, h1, a, b, _, c, _⟩ := contextLoop_turns hf.guard g.inv hk hcs hroom
      exact ⟨t, h1, a, b, c⟩
  obtain ⟨t, h1, e0, g1, p1⟩ := hwalk
  have ho1 := ho.good hf hc g1
  have e1 : ensureStates (env.guard live ok) h k cs = .ok h1 := by
    rw [walk_ensure, walk_context hf.guard g.inv hcs, e0]; rfl
  obtain ⟨⟨kst, kst', k1, k2, k3, _⟩, c2⟩ := update_refresh hf.guard
    (g.pres _ _ (linked_preserved hf.guard) (initial_linked models _ _ _)) hpos hk e1 g1 p1 he hg
  have e0' : contextState env h cs k = .ok ((t : Int), h1) := by
    simp only [contextState]
    rw [if_neg (by omega), ho.contextLoop hf hc]
    exact e0
  refine ⟨t, h1, kst, e0', k1, ?_⟩
  have hl1 : h1.hlen = h.hlen := g1.const.hlen
  -- by the length of the beginning
  have key : ∀ len, len ≤ cs.length → ∃ (q : Nat) (qst : HubState A.C), IsPath h1 k (cs.take len) q ∧
      IsPath h' k (cs.take len) q ∧ h'.states[q]? = some qst ∧
      ∀ (j : Nat) (m : σ), h1.models[j]? = some m → ∃ row costs, kst.hist[j]? = some row ∧ costs.length = len ∧
          (∀ (i : Nat) c x, cs[i]? = some c → costs[i]? = some x → ∃ (p : Nat) (pst : HubState A.C),
            contextState env h1 (cs.take i) k = .ok ((p : Int), h1) ∧ h1.states[p]? = some pst ∧
            x = (env.symScore m (pst.modelState j) c).1) ∧
          qst.hist[j]? = some (lastN h.hlen (row ++ costs)) ∧
          (0 < len → qst.histSum[j]? = some (rowSum A (lastN h.hlen (row ++ costs)))) := by
    intro len
    induction len with
    | zero =>
      intro _
      refine ⟨k, kst', rfl, rfl, k2, fun j m hm => ?_⟩
      have h0 := (g1.inv.st _ kst k1).hist (by rw [hl1]; exact hpos)
      obtain ⟨row, hrow⟩ := exists_getElem?_of_lt (l := kst.hist) (i := j) (by
        rw [h0.1]; exact lt_of_getElem?_eq_some hm)
      have hlen : row.length = h.hlen := by rw [h0.2.2 row (List.mem_of_getElem? hrow), hl1]
      refine ⟨row, [], hrow, rfl, fun i c x _ hx => by simp at hx, ?_, fun h => by omega⟩
      rw [k3, hrow, List.append_nil]
      simp [lastN, hlen]
    | succ len ih =>
      intro hlt
      obtain ⟨q0, qst0, a1, a2, a3, a4⟩ := ih (by omega)
      obtain ⟨c, hcc⟩ := exists_getElem?_of_lt (l := cs) (i := len) (by omega)
      have htake : cs.take (len + 1) = cs.take len ++ [c] := by
        rw [List.take_add_one, hcc]; rfl
      obtain ⟨p, pst1, pst, b1, b2, b3, b4, b5, b6⟩ := c2 (cs.take len) (cs.drop len) (List.take_append_drop _ _).symm
        (fun e => by have := congrArg List.length e; simp at this; omega)
      have hpq := a1.unique b1
      subst hpq
      rw [a3] at b4; cases b4
      -- the next character of the text
      have hsplit : IsPath h1 k (cs.take (len + 1) ++ cs.drop (len + 1)) t := by
        rw [List.take_append_drop]; exact p1
      obtain ⟨q, q1, _⟩ := hsplit.split
      rw [htake] at q1
      obtain ⟨q', r1, r2⟩ := q1.split
      have := r1.unique b1
      subst this
      obtain ⟨sst, q2, s1, s2, s3⟩ := r2
      cases s3
      rw [b3] at s1; cases s1
      rw [← b5] at s2
      obtain ⟨qst, u1, u2⟩ := b6 c q s2
      refine ⟨q, qst, by rw [htake]; exact q1, ?_, u1, fun j m hm => ?_⟩
      · rw [htake]
        have : ∀ (l : List Int) (s : Nat), IsPath h' s l q' → IsPath h' s (l ++ [c]) q := by
          intro l
          induction l with
          | nil => intro s hp; cases hp; exact ⟨qst0, q, a3, s2, rfl⟩
          | cons d l ih => rintro s ⟨x, y, z1, z2, z3⟩; exact ⟨x, y, z1, z2, ih y z3⟩
        exact this _ _ b2
      · obtain ⟨row, costs, v1, v2, v3, v4, _⟩ := a4 j m hm
        obtain ⟨m', row', w1, w2, w3, w4⟩ := u2 j m hm
        rw [v4] at w2; cases w2
        rw [lastN_lastN_snoc, List.append_assoc] at w3 w4
        obtain ⟨hlm, hok⟩ := ho1.at b3 j m hm
        rw [Nat.zero_add] at hok
        obtain ⟨y1, y2⟩ := hst.touch w1 hlm
        obtain ⟨y3, y4⟩ := y2 _ hok
        have hsc : ((env.guard live ok).symScore m' (pst1.modelState j) c).1 =
            (env.symScore m (pst1.modelState j) c).1 := by
          rw [← y4 c]
          simp only [Env.guard, LMOps.guard]
          rw [if_pos ⟨y1, y3⟩]
        rw [hsc] at w3 w4
        refine ⟨row, costs ++ [(env.symScore m (pst1.modelState j) c).1], v1, by simp [v2], ?_, w3, fun _ => w4⟩
        intro i d x hd hx
        by_cases hi : i < costs.length
        · rw [List.getElem?_append_left hi] at hx
          exact v3 i d x hd hx
        · have hil : i = len := by
            have := lt_of_getElem?_eq_some hx
            simp at this
            omega
          subst hil
          rw [hcc] at hd; cases hd
          rw [List.getElem?_append_right (by omega), v2] at hx
          simp at hx
          subst hx
          exact ⟨q', pst1, context_path b1, b3, rfl⟩
  intro len hl0 hle
  obtain ⟨q, qst, _, x2, x3, x4⟩ := key len hle
  refine ⟨q, qst, context_path x2, x3, fun j m hm => ?_⟩
  obtain ⟨row, costs, y1, y2, y3, y4, y5⟩ := x4 j m hm
  exact ⟨row, costs, y1, y2, y3, y4, y5 hl0⟩

end Mozolm.Hub
