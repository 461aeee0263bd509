import Verif.Server.HandlerLemmas
import Verif.Hub.Ring
import Verif.Hub.Demo

/-!
# Property theorems about the request handlers (C37, C49, C51, C52) and the hub calls they rest on
(C54, C55)

All quantify over the components, the configuration and the history of requests (`Reach`).
-/

namespace Mozolm.Server
open Hub
variable {A : Arith} {σ : Type} {env : Env A σ} {models : List σ} {cfg : HubConfig A.C}
  {reqs : List Request} {h h' : Hub A σ}

/-- C37: a non-negative 32-bit id that is not an existing state, with an empty context, is refused
with INVALID_ARGUMENT and nothing changes. -/
theorem C37_invalid_refused {x : Int} (h0 : 0 ≤ x) (h1 : x < 2 ^ 31)
    (hv : ¬ (x < h.states.length)) :
    getLMScores env h [] x = .ok (.invalidArgument, h) := by
  have hx : toInt32 x = x := toInt32_of_range (by omega) (by omega)
  have hb : h.valid x = false := by
    cases hc : h.valid x with
    | false => rfl
    | true => rw [valid_iff] at hc; omega
  have hn : ¬ x < 0 := by omega
  simp only [getLMScores, hx, contextState, contextLoop, ok_bind, if_neg hn, extractLMScores, hb,
    Bool.not_false, if_true]

/-- C37, the converse: if the components answer at their own states, then a 32-bit id is refused
*only* if it is non-negative and not an existing state (a negative id stands for the start state). -/
theorem C37_only_invalid_refused {ok : σ → Int → Prop} (hf : env.Fair)
    (hc : env.toLMOps.Closed ok) (hu : env.toLMOps.Accepts ok) (hr : Reach env models cfg reqs h)
    {x : Int} (h0 : -2 ^ 31 ≤ x) (h1 : x < 2 ^ 31)
    (he : getLMScores env h [] x = .ok (.invalidArgument, h')) : 0 ≤ x ∧ ¬ (x < h.states.length) := by
  have g := hr.good hf
  have ha := g.pres _ _ (allOK_preserved hf hc) (initial_allOK hc models _ _ _)
  have hx : toInt32 x = x := toInt32_of_range (by omega) (by omega)
  apply Classical.byContradiction
  intro hno
  have hv : h.valid (if x < 0 then 0 else x) = true := by
    have := g.inv.pos
    rw [valid_iff]
    split <;> omega
  simp only [getLMScores, hx, contextState, contextLoop, ok_bind] at he
  obtain ⟨⟨r, h2⟩, e1, e2⟩ := bind_ok.1 he
  have := extract_accepts hu ha hv e1
  cases r with
  | none => exact this rfl
  | some y => simp at e2

/-- C37 fails beyond 32 bits: id 2^32 is accepted as state 0. -/
theorem C37_false : ∃ (h h' : Hub Arith.unit Unit) (s : LMScores Unit),
    Reach Demo.counter [()] Demo.cfg10 [] h ∧ ¬ ((2 ^ 32 : Int) < h.states.length) ∧
    getLMScores Demo.counter h [] (2 ^ 32) = .ok (.ok s, h') :=
  ⟨_, _, _, ⟨_, rfl, rfl⟩, by decide, rfl⟩

/-- C37 fails for updates: the id just past the table is not a state, but the handler creates a state
with that id – from the start state – before it checks, counts in its context, and accepts. -/
theorem C37_update_false : ∃ (h h' : Hub Arith.unit (List (Int × List Int))) (s : LMScores Unit),
    Reach Demo.recorder [[]] Demo.cfg10 [] h ∧ h.states.length = 1 ∧
    updateLMScores Demo.recorder h 1 [97] 1 = .ok (.ok s, h') ∧ h'.models = [[(1, [97])]] :=
  ⟨_, _, _, ⟨_, rfl, rfl⟩, rfl, rfl, rfl⟩

/-- C49: an update at a 32-bit id that can be no state (negative, or beyond the configured maximum) is
refused and leaves the counts (any observation queries do not change) alone. -/
theorem C49_invalid_state_changes_nothing (hf : env.Fair) (hr : Reach env models cfg reqs h)
    {γ : Type} {obs : σ → γ} (hq : env.toLMOps.QueryInvariant obs) {x : Int}
    (h0 : -2 ^ 31 ≤ x) (h1 : x < 2 ^ 31)
    (hx : x < 0 ∨ (if cfg.maxStates < 10 then 10000 else cfg.maxStates) ≤ x)
    {cs : List Int} {n : Int} {rep : Reply (LMScores A.D)}
    (he : updateLMScores env h x cs n = .ok (rep, h')) :
    rep = .invalidArgument ∧ h'.models.map obs = h.models.map obs := by
  have g := hr.good hf
  rw [updateLMScores, toInt32_of_range (by omega) (by omega)] at he
  obtain ⟨⟨w, h2⟩, e1, he⟩ := bind_ok.1 he
  obtain ⟨_, _, e1', g2, t2, _⟩ := walk_ok hf g.inv x cs
  rw [e1] at e1'; cases e1'
  obtain ⟨⟨u, h3⟩, e3, he⟩ := bind_ok.1 he
  have hb : h2.valid x = false := by
    cases hc : h2.valid x with
    | false => rfl
    | true =>
      rw [valid_iff] at hc
      have h4 := (g.trans g2).inv.le
      have h5 : h2.max = cfgMax cfg := (g.trans g2).const.max
      unfold cfgMax at h5
      split at hx
      · next hm => rw [if_pos hm] at h5; omega
      · next hm => rw [if_neg hm] at h5; omega
  obtain ⟨h4, _, ht, ⟨_, h5, h6⟩ | ⟨h5, _⟩⟩ := update_parts hf g2.inv e3
  · subst h6 h5
    simp only [Bool.false_eq_true, if_false, Except.ok.injEq, Prod.mk.injEq] at he
    rw [← he.1, ← he.2]
    exact ⟨rfl, by rw [← hq.touches ht, ← hq.touches t2]⟩
  · rw [hb] at h5; cases h5

/-- An update whose state exists once the continuation states do is not refused (components accepting
updates and answering at their own states, non-negative symbols, no state recycled while being
extended). -/
theorem update_not_refused {ok : σ → Int → Prop} (hf : env.Fair)
    (hc : env.toLMOps.Closed ok) (hu : env.toLMOps.Accepts ok)
    (hr : Reach env models cfg reqs h) {x w : Int} {h2 : Hub A σ} {cs : List Int}
    (hcs : ∀ c ∈ cs, 0 ≤ c) {n : Int} (e1 : walk env h (toInt32 x) cs = .ok (w, h2))
    (hv2 : h2.valid (toInt32 x) = true)
    {rep : Reply (LMScores A.D)} (he : updateLMScores env h x cs n = .ok (rep, h'))
    (hg : h'.selfRecycled = false) : rep ≠ .invalidArgument := by
  have g := hr.good hf
  have hw2 := walk_valid hf g.inv hcs e1 hv2
  rw [updateLMScores, e1, ok_bind] at he
  simp only at he
  obtain ⟨_, _, e1', g2, t2, v2⟩ := walk_ok hf g.inv (toInt32 x) cs
  rw [e1] at e1'; cases e1'
  obtain ⟨⟨u, h3⟩, e3, he⟩ := bind_ok.1 he
  have g3 := update_good hf g2.inv e3
  -- the update is accepted
  have hut : u = true := by
    have hg3 : h3.selfRecycled = false := by
      cases u with
      | false =>
        simp only [Bool.false_eq_true, if_false, Except.ok.injEq, Prod.mk.injEq] at he
        rw [he.2]; exact hg
      | true =>
        simp only [if_true] at he
        obtain ⟨⟨r, h4⟩, e4, he⟩ := bind_ok.1 he
        have : h4 = h' := by
          cases r <;> (simp only [Except.ok.injEq, Prod.mk.injEq] at he; exact he.2)
        subst this
        exact ghost_false (extract_good g3.inv e4) hg
    simp only [updateLMCounts] at e3
    obtain ⟨ha, ea, e3⟩ := bind_ok.1 e3
    obtain ⟨_, ea', ga⟩ := ensureStates_ok hf g2.inv (toInt32 x) cs
    rw [ea] at ea'; cases ea'
    obtain ⟨hb, eb, e3⟩ := bind_ok.1 e3
    have gb : Good env ha hb := by
      split at eb
      · exact historyLoop_good hf ga.inv eb
      · cases eb; exact Good.refl ga.inv
    rw [hv2] at e3
    simp only [if_true] at e3
    have gall := g.trans (g2.trans (ga.trans gb))
    have hall := gall.pres _ _ (allOK_preserved hf hc) (initial_allOK hc models _ _ _)
    have hlk := gall.pres _ _ (linked_preserved hf) (initial_linked models _ _ _)
    split at e3
    · cases e3
    · next st hst =>
      obtain ⟨⟨b, ms⟩, ec, e3⟩ := bind_ok.1 e3
      have hbt : b = true := updateLoop_accepts hu 0 _ _ _ _
        (fun j m hm => by rw [Nat.zero_add]; exact hall _ st hst j m hm) ec
      subst hbt
      simp only [if_true] at e3
      have gm : Good env hb { hb with models := ms } :=
        Good.setModels gb.inv (updateLoop_touches _ _ _ _ _ ec)
      obtain ⟨_, _, ed', gd⟩ := verifyLoop_ok (env := env) gm.inv
        (lt_of_getElem?_eq_some (l := hb.states) hst) cs
      have ed'' := ed'
      rw [e3] at ed'; cases ed'
      have hgb : ({ hb with models := ms } : Hub A σ).selfRecycled = false := ghost_false gd hg3
      obtain ⟨h5, e5⟩ := verifyLoop_true (env := env) gm.inv
        (gm.pres _ _ (linked_preserved hf) hlk) hgb
        (lt_of_getElem?_eq_some (l := hb.states) hst) cs
      rw [e3] at e5; cases e5; rfl
  subst hut
  simp only [if_true] at he
  obtain ⟨⟨r, h4⟩, e4, he⟩ := bind_ok.1 he
  have gall := g.trans (g2.trans g3)
  have hall := gall.pres _ _ (allOK_preserved hf hc) (initial_allOK hc models _ _ _)
  have := extract_accepts hu hall (Good.valid g3 hw2) e4
  cases r with
  | none => exact absurd rfl this
  | some y =>
    simp only [Except.ok.injEq, Prod.mk.injEq] at he
    rw [← he.1]; simp

/-- C49: a request with non-negative symbols at an existing state, in a history in which no state was
recycled while being extended, is *not* refused when the components accept updates and answer at their
own states. -/
theorem C49_valid_not_refused {ok : σ → Int → Prop} (hf : env.Fair)
    (hc : env.toLMOps.Closed ok) (hu : env.toLMOps.Accepts ok)
    (hr : Reach env models cfg reqs h) {x : Int} (h0 : 0 ≤ x) (h1 : x < h.states.length)
    (h2 : x < 2 ^ 31) {cs : List Int} (hcs : ∀ c ∈ cs, 0 ≤ c) {n : Int}
    {rep : Reply (LMScores A.D)} (he : updateLMScores env h x cs n = .ok (rep, h'))
    (hg : h'.selfRecycled = false) : rep ≠ .invalidArgument := by
  have g := hr.good hf
  have hx : toInt32 x = x := toInt32_of_range (by omega) (by omega)
  obtain ⟨w, h2, e1, g2, _⟩ := walk_ok hf g.inv (toInt32 x) cs
  refine update_not_refused hf hc hu hr hcs e1 (Good.valid g2 ?_) he hg
  rw [hx, valid_iff]; omega

/-- C49: if an update with non-negative symbols – at any 64-bit state id – is refused, and the
components accept updates at their own states, then no counts have changed, in every history in which
no state was recycled while being extended. -/
theorem C49_refused_changes_nothing {ok : σ → Int → Prop} (hf : env.Fair)
    (hc : env.toLMOps.Closed ok) (hu : env.toLMOps.Accepts ok)
    (hr : Reach env models cfg reqs h) {γ : Type} {obs : σ → γ}
    (hq : env.toLMOps.QueryInvariant obs) {x : Int} {cs : List Int} (hcs : ∀ c ∈ cs, 0 ≤ c) {n : Int}
    (he : updateLMScores env h x cs n = .ok (.invalidArgument, h')) (hg : h'.selfRecycled = false) :
    h'.models.map obs = h.models.map obs := by
  have g := hr.good hf
  obtain ⟨w, h2, e1, g2, t2, _⟩ := walk_ok hf g.inv (toInt32 x) cs
  cases hv : h2.valid (toInt32 x) with
  | true => exact absurd rfl (update_not_refused hf hc hu hr hcs e1 hv he hg)
  | false =>
    rw [updateLMScores, e1, ok_bind] at he
    obtain ⟨⟨u, h3⟩, e3, he⟩ := bind_ok.1 he
    obtain ⟨h4, _, ht, ⟨_, h6, h7⟩ | ⟨h5, _⟩⟩ := update_parts hf g2.inv e3
    · subst h6 h7
      simp only [Bool.false_eq_true, if_false, Except.ok.injEq, Prod.mk.injEq] at he
      rw [← he.2]
      rw [← hq.touches ht, ← hq.touches t2]
    · rw [hv] at h5; cases h5

/-- C49 fails: a trailing negative symbol is refused after the component has counted. -/
theorem C49_false : ∃ (h h' : Hub Arith.unit (List (Int × List Int))),
    Reach Demo.recorder [[]] Demo.cfg10 [] h ∧ h.models = [[]] ∧
    updateLMScores Demo.recorder h 0 [97, -1] 1 = .ok (.invalidArgument, h') ∧
    h'.models = [[(0, [97, -1])]] :=
  ⟨_, _, ⟨_, rfl, rfl⟩, rfl, rfl, rfl⟩

/-- The counting part of an accepted update, once the walk has left slot `k` and a cached path from it. -/
theorem counts_of_walk (hf : env.Fair) {k t : Nat} {st st1 : HubState A.C} {ha : Hub A σ}
    {x : Int} (hx : toInt32 x = (k : Int)) {cs : List Int} {n : Int} {s : LMScores A.D}
    (e1 : walk env h (k : Int) cs = .ok ((t : Int), ha)) (ga : Good env h ha)
    (pa : IsPath ha k cs t) (ta : Touches env.toLMOps h.models ha.models)
    (hk : k < h.states.length) (s1 : ha.states[k]? = some st1)
    (s2 : st1.modelStates = st.modelStates)
    (he : updateLMScores env h x cs n = .ok (.ok s, h')) :
      ∀ (j : Nat) (m : σ), h.models[j]? = some m →
        (j < h.weights.length → ∃ m1 m2 m', Touch env.toLMOps m m1 ∧
          env.update m1 (st.modelState j) cs n = (true, m2) ∧ Touch env.toLMOps m2 m' ∧
          h'.models[j]? = some m') ∧
        (h.weights.length ≤ j → ∃ m', Touch env.toLMOps m m' ∧ h'.models[j]? = some m') := by
  rw [updateLMScores, hx, e1, ok_bind] at he
  simp only at he
  obtain ⟨⟨u, hb⟩, e3, he⟩ := bind_ok.1 he
  cases u with
  | false => simp at he
  | true =>
    simp only [if_true] at he
    obtain ⟨⟨r, hc⟩, e4, he⟩ := bind_ok.1 he
    have : hc = h' := by
      cases r <;> simp only [Except.ok.injEq, Prod.mk.injEq] at he
      · cases he.1
      · exact he.2
    subst this
    obtain ⟨msE, tE, eE⟩ := extract_states e4
    simp only [updateLMCounts] at e3
    have hen : ensureStates env ha (k : Int) cs = .ok ha := ensureStates_path pa
    have hva : ha.valid (k : Int) = true := by
      rw [valid_iff]; have := ga.const.len; omega
    simp only [hen, ok_bind, hva, if_true] at e3
    obtain ⟨hd, ed, e3⟩ := bind_ok.1 e3
    have fd : Frame env ha hd := by
      split at ed
      · obtain ⟨_, ed', fd, _⟩ := historyLoop_path (env := env) hf ga.inv pa
        rw [ed] at ed'; cases ed'; exact fd
      · cases ed; exact Frame.refl _ _
    split at e3
    · cases e3
    · next st2 hst2 =>
      obtain ⟨st2', s3, _, _, _, s4⟩ := fd.symm_st s1
      have hst2' : hd.states[k]? = some st2 := hst2
      rw [s3] at hst2'; cases hst2'
      have hms : ∀ j, st2.modelState j = st.modelState j := by
        intro j; simp only [HubState.modelState, s4, s2]
      obtain ⟨⟨b, ms⟩, ec, e3⟩ := bind_ok.1 e3
      cases b with
      | false => simp at e3
      | true =>
        simp only [if_true] at e3
        have tv := verifyLoop_touches (h := { hd with models := ms }) e3
        have hw : hd.weights = h.weights := by rw [fd.weights, ga.const.weights]
        rw [hw] at ec
        obtain ⟨u1, u2⟩ := updateLoop_each 0 _ _ _ ec
        have hmodels : hc.models = msE := by rw [eE]
        intro j m hm
        obtain ⟨m0, p1, p2⟩ := Pointwise.get (Touches.trans ta fd.models) hm
        constructor
        · intro hj
          obtain ⟨m2, q1, q2⟩ := u1 j m0 hj p1
          obtain ⟨m', r1, r2⟩ := Pointwise.get (Touches.trans tv tE) q2
          rw [Nat.zero_add, hms] at q1
          exact ⟨m0, m2, m', p2, q1, r2, by rw [hmodels]; exact r1⟩
        · intro hj
          have := u2 j hj
          rw [p1] at this
          obtain ⟨m', r1, r2⟩ := Pointwise.get (Touches.trans tv tE) this
          exact ⟨m', p2.trans r2, by rw [hmodels]; exact r1⟩

/-- C51: while the table has room for one state per symbol, an accepted update at an existing state
makes each mixed component count the symbols exactly once, at the component state that the requested
hub state held when the request arrived; before and after it the component only sees queries, and the
components that are not mixed see only queries. -/
theorem C51_counts_at_requested_state (hf : env.Fair) (hr : Reach env models cfg reqs h) {x : Int}
    (h0 : 0 ≤ x) (h1 : x < h.states.length) (h2 : x < 2 ^ 31) {cs : List Int}
    (hcs : ∀ c ∈ cs, 0 ≤ c)
    (hroom : (h.states.length + cs.length : Int) ≤ if cfg.maxStates < 10 then 10000 else cfg.maxStates)
    {n : Int} {s : LMScores A.D} (he : updateLMScores env h x cs n = .ok (.ok s, h')) :
    ∃ st, h.states[x.toNat]? = some st ∧
      ∀ (j : Nat) (m : σ), h.models[j]? = some m →
        (j < h.weights.length → ∃ m1 m2 m', Touch env.toLMOps m m1 ∧
          env.update m1 (st.modelState j) cs n = (true, m2) ∧ Touch env.toLMOps m2 m' ∧
          h'.models[j]? = some m') ∧
        (h.weights.length ≤ j → ∃ m', Touch env.toLMOps m m' ∧ h'.models[j]? = some m') := by
  have g := hr.good hf
  have hmax : h.max = cfgMax cfg := g.const.max
  have hroom' : h.states.length + cs.length ≤ h.max := by
    rw [hmax]; unfold cfgMax
    split at hroom
    · next hc => rw [if_pos hc]; omega
    · next hc => rw [if_neg hc]; omega
  obtain ⟨k, rfl⟩ := Int.eq_ofNat_of_zero_le h0
  have hk : k < h.states.length := by omega
  obtain ⟨st, hst⟩ := exists_getElem?_of_lt hk
  refine ⟨st, hst, ?_⟩
  obtain ⟨t, ha, e1', ga, ka, pa, _, _, ta, _⟩ := contextLoop_room hf g.inv hk hcs hroom'
  obtain ⟨st1, s1, s2, _⟩ := ka k st hst
  exact counts_of_walk hf (toInt32_of_range (by omega) (by omega))
    ((walk_context hf g.inv hcs).trans e1') ga pa ta hk s1 s2 he

/-- C51 with a full table: the same, for every existing state that more than `syms` creations separate
from being overwritten (states are overwritten in the order of their ids, cyclically; `turnsLeft`). -/
theorem C51_counts_until_recycled (hf : env.Fair) (hr : Reach env models cfg reqs h) {x : Int}
    (h0 : 0 ≤ x) (h1 : x < h.states.length) (h2 : x < 2 ^ 31) {cs : List Int}
    (hcs : ∀ c ∈ cs, 0 ≤ c) (hturns : cs.length < h.turnsLeft x.toNat)
    {n : Int} {s : LMScores A.D} (he : updateLMScores env h x cs n = .ok (.ok s, h')) :
    ∃ st, h.states[x.toNat]? = some st ∧
      ∀ (j : Nat) (m : σ), h.models[j]? = some m →
        (j < h.weights.length → ∃ m1 m2 m', Touch env.toLMOps m m1 ∧
          env.update m1 (st.modelState j) cs n = (true, m2) ∧ Touch env.toLMOps m2 m' ∧
          h'.models[j]? = some m') ∧
        (h.weights.length ≤ j → ∃ m', Touch env.toLMOps m m' ∧ h'.models[j]? = some m') := by
  have g := hr.good hf
  obtain ⟨k, rfl⟩ := Int.eq_ofNat_of_zero_le h0
  have hk : k < h.states.length := by omega
  obtain ⟨st, hst⟩ := exists_getElem?_of_lt hk
  refine ⟨st, hst, ?_⟩
  obtain ⟨t, ha, e1', ga, ka, pa, ta⟩ := contextLoop_turns hf g.inv hk hcs hturns
  obtain ⟨st1, s1, s2, _⟩ := ka k st hst hturns
  exact counts_of_walk hf (toInt32_of_range (by omega) (by omega))
    ((walk_context hf g.inv hcs).trans e1') ga pa ta hk s1 s2 he

/-- the hypotheses of `C51_counts_until_recycled` are met by a full table (ten states), at state 5 with
two symbols -/
example : ∃ (h h' : Hub Arith.unit (List (Int × List Int))) (s : LMScores Unit),
    Reach Demo.recorder [[]] Demo.cfg10 [.getNextState [1, 1, 1, 1, 1, 1, 1, 1, 1] (-1)] h ∧
    h.states.length = 10 ∧ h.turnsLeft 5 = 5 ∧
    updateLMScores Demo.recorder h 5 [5, 6] 1 = .ok (.ok s, h') ∧ h'.models = [[(5, [5, 6])]] :=
  ⟨_, _, _, ⟨_, rfl, rfl⟩, rfl, rfl, rfl, rfl⟩

/-- C51, any table: an accepted update makes each mixed component count the symbols exactly once, at the
component state the requested slot holds when the counting starts (`h2`: the hub after the continuation
states have been provided); before and after it the component only sees queries, and the components that
are not mixed see only queries. -/
theorem C51_counts_once (hf : env.Fair) (hr : Reach env models cfg reqs h) {x : Int} {cs : List Int}
    {n : Int} {s : LMScores A.D} (he : updateLMScores env h x cs n = .ok (.ok s, h')) :
    ∃ h2 st, Good env h h2 ∧ h2.states[(toInt32 x).toNat]? = some st ∧
      ∀ (j : Nat) (m : σ), h.models[j]? = some m →
        (j < h.weights.length → ∃ m1 m2 m', Touch env.toLMOps m m1 ∧
          env.update m1 (st.modelState j) cs n = (true, m2) ∧ Touch env.toLMOps m2 m' ∧
          h'.models[j]? = some m') ∧
        (h.weights.length ≤ j → ∃ m', Touch env.toLMOps m m' ∧ h'.models[j]? = some m') := by
  have g := hr.good hf
  obtain ⟨w, ha, e1, ga, ta, _⟩ := walk_ok hf g.inv (toInt32 x) cs
  rw [updateLMScores, e1, ok_bind] at he
  obtain ⟨⟨u, hb⟩, e3, he⟩ := bind_ok.1 he
  cases u with
  | false => simp at he
  | true =>
    simp only [if_true] at he
    obtain ⟨⟨r, hc⟩, e4, he⟩ := bind_ok.1 he
    have : hc = h' := by
      cases r <;> simp only [Except.ok.injEq, Prod.mk.injEq] at he
      · cases he.1
      · exact he.2
    subst this
    obtain ⟨msE, tE, eE⟩ := extract_states e4
    obtain ⟨h2, g2, t2, ⟨_, h6, _⟩ | ⟨_, st, b, ms, h5, h6, h7, h8⟩⟩ := update_parts hf ga.inv e3
    · cases h6
    · have hb' := h8 rfl
      subst hb'
      refine ⟨h2, st, ga.trans g2, h5, ?_⟩
      have hw : h2.weights = h.weights := by rw [g2.const.weights, ga.const.weights]
      rw [hw] at h6
      obtain ⟨u1, u2⟩ := updateLoop_each 0 _ _ _ h6
      have hmodels : hc.models = msE := by rw [eE]
      intro j m hm
      obtain ⟨m0, p1, p2⟩ := Pointwise.get (Touches.trans ta t2) hm
      constructor
      · intro hj
        obtain ⟨m2, q1, q2⟩ := u1 j m0 hj p1
        obtain ⟨m', r1, r2⟩ := Pointwise.get (Touches.trans h7 tE) q2
        rw [Nat.zero_add] at q1
        exact ⟨m0, m2, m', p2, q1, r2, by rw [hmodels]; exact r1⟩
      · intro hj
        have := u2 j hj
        rw [p1] at this
        obtain ⟨m', r1, r2⟩ := Pointwise.get (Touches.trans h7 tE) this
        exact ⟨m', p2.trans r2, by rw [hmodels]; exact r1⟩

/-- C51 at the start state, any table: the counts go to each component's start state. -/
theorem C51_counts_at_start (hf : env.Fair) (hss : env.toLMOps.StartStable)
    (hr : Reach env models cfg reqs h) {cs : List Int}
    {n : Int} {s : LMScores A.D} (he : updateLMScores env h 0 cs n = .ok (.ok s, h')) :
      ∀ (j : Nat) (m m0 : σ), h.models[j]? = some m → models[j]? = some m0 → j < h.weights.length →
        ∃ m1 m2 m', Touch env.toLMOps m m1 ∧ env.update m1 (env.start m0) cs n = (true, m2) ∧
          Touch env.toLMOps m2 m' ∧ h'.models[j]? = some m' := by
  have g := hr.good hf
  obtain ⟨h2, st, g2, hst, hall⟩ := C51_counts_once hf hr he
  have gg := g.trans g2
  obtain ⟨st', e1, e2, -⟩ := gg.pres _ _ (start_preserved hf hss) ⟨_, rfl, rfl, rfl, rfl⟩
  have h00 : (toInt32 0).toNat = 0 := by rw [toInt32_of_range (by omega) (by omega)]; rfl
  rw [h00, e1, Option.some.injEq] at hst; subst hst
  intro j m m0 hm hm0 hj
  obtain ⟨m1, m2, m', q1, q2, q3, q4⟩ := (hall j m hm).1 hj
  refine ⟨m1, m2, m', q1, ?_, q3, q4⟩
  have : st'.modelState j = env.start m0 := by
    have e3 : st'.modelStates = models.map env.start := by
      rw [e2, ← hss.touches gg.const.models]; rfl
    simp [HubState.modelState, e3, hm0]
  rw [← this]; exact q2

/-- C51 fails when the table is full: the ten states of this hub are the contexts of 0..9 symbols;
the update at state 2 (two symbols consumed) is counted at component state 4 – the slot was recycled
for the continuation – and the request is accepted. -/
theorem C51_false : ∃ (h h' : Hub Arith.unit (List (Int × List Int))) (s : LMScores Unit),
    Reach Demo.recorder [[]] Demo.cfg10 [.getNextState [1, 1, 1, 1, 1, 1, 1, 1, 1] (-1)] h ∧
    (h.states[2]?).map HubState.modelStates = some [2] ∧
    updateLMScores Demo.recorder h 2 [5, 6] 1 = .ok (.ok s, h') ∧
    h'.models = [[(4, [5, 6])]] :=
  ⟨_, _, _, ⟨_, rfl, rfl⟩, rfl, rfl, rfl⟩

/-- C52: asking for the scores at the state `GetNextState` returned (with an empty context) gives
exactly the reply, and the hub, that asking for the scores with the original context and state would
have given. -/
theorem C52_scores_of_next_state (hf : env.Fair) (hr : Reach env models cfg reqs h)
    (hmax : cfg.maxStates < 2 ^ 31) {ctx : List Int} {x r : Int}
    (he : getNextState env h ctx x = .ok (.ok r, h')) :
    getLMScores env h' [] r = getLMScores env h ctx x := by
  have g := hr.good hf
  obtain ⟨⟨r', h2⟩, e1, e2⟩ := bind_ok.1 he
  simp only [Except.ok.injEq, Prod.mk.injEq, Reply.ok.injEq] at e2
  obtain ⟨rfl, rfl⟩ := e2
  obtain ⟨r2, h3, e, g2, n1, n2⟩ := contextLoop_ok hf g.inv (if toInt32 x < 0 then 0 else toInt32 x) ctx
  have e1' := e1
  unfold contextState at e1'
  have e' := e1'.symm.trans e
  simp only [Except.ok.injEq, Prod.mk.injEq] at e'
  obtain ⟨rfl, rfl⟩ := e'
  have hrange : 0 ≤ r' ∧ r' < 2 ^ 31 := by
    have := toInt32_range x
    by_cases hc : ctx = []
    · rw [n2 hc]; split <;> omega
    · have h4 := n1 hc
      have h5 := (g.trans g2).inv.le
      have h6 : h2.max = cfgMax cfg := (g.trans g2).const.max
      unfold cfgMax at h6
      split at h6 <;> omega
  have hx : toInt32 r' = r' := toInt32_of_range (by omega) (by omega)
  have hn : ¬ r' < 0 := by omega
  simp only [getLMScores, e1, ok_bind, hx]
  simp only [contextState, contextLoop, ok_bind, if_neg hn]

/-- C52, in any order: while the table has room or the state is more creations away from being
overwritten than the context has symbols, `GetNextState` and `GetLMScores` with the same
non-negative context and existing state (or a negative id) see the same state: asking for the state
first, the scores afterwards are those of the state returned; asking again returns the same state
and changes nothing. -/
theorem C52_next_state_repeatable (hf : env.Fair) (hr : Reach env models cfg reqs h)
    {ctx : List Int} (hctx : ∀ c ∈ ctx, 0 ≤ c) {x : Int} (h0 : -2 ^ 31 ≤ x) (h2 : x < 2 ^ 31)
    (h1 : x < h.states.length)
    (hroom : (h.states.length + ctx.length : Int) ≤
      (if cfg.maxStates < 10 then 10000 else cfg.maxStates) ∨ ctx.length < h.turnsLeft x.toNat)
    {r : Int} (he : getNextState env h ctx x = .ok (.ok r, h')) :
    getNextState env h' ctx x = .ok (.ok r, h') := by
  have g := hr.good hf
  have hmax : h.max = cfgMax cfg := g.const.max
  have hx : toInt32 x = x := toInt32_of_range (by omega) (by omega)
  have hpos := g.inv.pos
  obtain ⟨k, hk⟩ : ∃ k : Nat, (if x < 0 then 0 else x) = (k : Int) := by
    split
    · exact ⟨0, rfl⟩
    · exact Int.eq_ofNat_of_zero_le (by omega)
  have hkl : k < h.states.length := by split at hk <;> omega
  have hkx : k = x.toNat := by split at hk <;> omega
  have hwalk : ∃ (t : Nat) (h3 : Hub A σ), contextLoop env h k ctx = .ok ((t : Int), h3) ∧
      IsPath h3 k ctx t := by
    rcases hroom with hroom | hroom
    · have hroom' : h.states.length + ctx.length ≤ h.max := by
        rw [hmax]; unfold cfgMax
        split at hroom
        · next hc => rw [if_pos hc]; omega
        · next hc => rw [if_neg hc]; omega
      obtain ⟨t, h3, e, _, _, p, _⟩ := contextLoop_room hf g.inv hkl hctx hroom'
      exact ⟨t, h3, e, p⟩
    · rw [← hkx] at hroom
      obtain ⟨t, h3, e, _, _, p, _⟩ := contextLoop_turns hf g.inv hkl hctx hroom
      exact ⟨t, h3, e, p⟩
  obtain ⟨t, h3, e, p⟩ := hwalk
  simp only [getNextState, hx, contextState, hk] at he ⊢
  rw [e] at he
  simp only [ok_bind, Except.ok.injEq, Prod.mk.injEq, Reply.ok.injEq] at he
  obtain ⟨rfl, rfl⟩ := he
  rw [contextLoop_path p]
  rfl

/-- C52, repeating a request is not idempotent when the table is full and the context overwrites the
requested state: the same request is answered by state 2, then by state 4. -/
theorem C52_repeat_false : ∃ (h h1 h2 : Hub Arith.unit (List (Int × List Int))),
    Reach Demo.recorder [[]] Demo.cfg10 [.getNextState [1, 1, 1, 1, 1, 1, 1, 1, 1] (-1)] h ∧
    getNextState Demo.recorder h [5, 6] 2 = .ok (.ok 2, h1) ∧
    getNextState Demo.recorder h1 [5, 6] 2 = .ok (.ok 4, h2) :=
  ⟨_, _, _, ⟨_, rfl, rfl⟩, rfl, rfl⟩

/-- C54: after a successful `UpdateLMCounts` at an existing state, with room in the table – or more
creations away from being overwritten than there are symbols –, the state
`ContextState` gives for the symbols just counted holds for each component the state that component's
*current* transitions lead to from the component state of the requested state – also when counting
changed the component's transitions. -/
theorem C54_states_follow_components {view : σ → Int → Int → Int} (hf : env.Fair)
    (hv : env.toLMOps.Viewed view) (hr : Reach env models cfg reqs h) {k : Nat}
    (hk : k < h.states.length) {cs : List Int} (hcs : ∀ c ∈ cs, 0 ≤ c)
    (hroom : (h.states.length + cs.length : Int) ≤
      (if cfg.maxStates < 10 then 10000 else cfg.maxStates) ∨ cs.length < h.turnsLeft k)
    {n : Int} (he : updateLMCounts env h k cs n = .ok (true, h')) (hg : h'.selfRecycled = false) :
    ∃ (t : Nat) (st tst : HubState A.C), contextState env h' cs k = .ok ((t : Int), h') ∧
      h'.states[k]? = some st ∧ h'.states[t]? = some tst ∧
      ∀ (j : Nat) (m : σ), h'.models[j]? = some m →
        tst.modelState j = pathState (view m) (st.modelState j) cs := by
  have g := hr.good hf
  have hmax : h.max = cfgMax cfg := g.const.max
  have hwalk : ∃ (t : Nat) (hb : Hub A σ), contextLoop env h k cs = .ok ((t : Int), hb) ∧
      Good env h hb ∧ IsPath hb k cs t := by
    rcases hroom with hroom | hroom
    · have hroom' : h.states.length + cs.length ≤ h.max := by
        rw [hmax]; unfold cfgMax
        split at hroom
        · next hc => rw [if_pos hc]; omega
        · next hc => rw [if_neg hc]; omega
      obtain ⟨t, hb, e1', ga, _, pa, _⟩ := contextLoop_room hf g.inv hk hcs hroom'
      exact ⟨t, hb, e1', ga, pa⟩
    · obtain ⟨t, hb, e1', ga, _, pa, _⟩ := contextLoop_turns hf g.inv hk hcs hroom
      exact ⟨t, hb, e1', ga, pa⟩
  simp only [updateLMCounts] at he
  obtain ⟨ha, e1, he⟩ := bind_ok.1 he
  obtain ⟨t, hb, e1', ga, pa⟩ := hwalk
  rw [walk_ensure, walk_context hf g.inv hcs, e1'] at e1
  simp only [ok_bind, Except.ok.injEq] at e1
  subst e1
  have hva : h.valid (k : Int) = true := by rw [valid_iff]; omega
  simp only [hva, if_true] at he
  obtain ⟨hd, ed, he⟩ := bind_ok.1 he
  have fd : Frame env hb hd ∧ Good env hb hd := by
    split at ed
    · obtain ⟨_, ed', fd, gd⟩ := historyLoop_path (env := env) hf ga.inv pa
      rw [ed] at ed'; cases ed'; exact ⟨fd, gd⟩
    · cases ed; exact ⟨Frame.refl _ _, Good.refl ga.inv⟩
  obtain ⟨fd, gd⟩ := fd
  have gall := g.trans (ga.trans gd)
  have hlk := gall.pres _ _ (linked_preserved hf) (initial_linked models _ _ _)
  split at he
  · cases he
  · next st hst =>
    have hst' : hd.states[k]? = some st := hst
    obtain ⟨⟨b, ms⟩, ec, he⟩ := bind_ok.1 he
    cases b with
    | false => simp at he
    | true =>
      simp only [if_true] at he
      have gm : Good env hd { hd with models := ms } :=
        Good.setModels gd.inv (updateLoop_touches _ _ _ _ _ ec)
      have hgm : ({ hd with models := ms } : Hub A σ).selfRecycled = false := by
        obtain ⟨_, _, ev, gv⟩ := verifyLoop_ok (env := env) gm.inv
          (lt_of_getElem?_eq_some (l := hd.states) hst) cs
        rw [he] at ev; cases ev
        exact ghost_false gv hg
      have pd : IsPath hd k cs t := IsPath.keep fd.keep pa
      have pm : IsPath { hd with models := ms } k cs t := IsPath.keep (h := hd)
        (h' := { hd with models := ms }) (fun i st e => ⟨st, e, rfl, rfl, rfl, fun _ _ x => x⟩) pd
      obtain ⟨h2, tst, e2, _, sm, p2, t2, ht, hview⟩ := verifyLoop_path hv gm.inv
        (gm.pres _ _ (linked_preserved hf) hlk) hgm hst' pm
      have e3 : verifyLoop env { hd with models := ms } k cs = .ok (true, h') := he
      rw [e2] at e3; cases e3
      refine ⟨t, st, tst, ?_, ?_, ht, ?_⟩
      · simp only [contextState]
        rw [if_neg (by omega)]
        exact contextLoop_path p2
      · rw [sm k (lt_of_getElem?_eq_some (l := hd.states) hst) (Nat.le_refl _)]; exact hst'
      · intro j m hm
        obtain ⟨m0, q1, q2⟩ := Pointwise.get' t2 hm
        rw [hview j m0 q1, hv.inv.touch q2]

/-- C55: in every history every component state stored in the hub – the only ones it ever passes to
the component – is the component's start state or was returned by the component's `NextState` for
such a state and a non-negative symbol: it satisfies every property closed under that. -/
theorem C55_only_component_states {ok : σ → Int → Prop} (hf : env.Fair)
    (hc : env.toLMOps.Closed ok) (hr : Reach env models cfg reqs h) {i j : Nat}
    {st : HubState A.C} {m : σ} (hst : h.states[i]? = some st) (hm : h.models[j]? = some m) :
    ok m (st.modelState j) :=
  (hr.good hf).pres _ _ (allOK_preserved hf hc) (initial_allOK hc models _ _ _) i st hst j m hm

/-! ## Non-vacuity -/

theorem recorder_fair : Demo.recorder.Fair := ⟨fun _ => .rfl, fun _ => .rfl⟩

/-- the states of the recorder are the natural numbers -/
theorem recorder_closed : Demo.recorder.toLMOps.Closed (fun _ s => 0 ≤ s) where
  start _ := Int.le_refl _
  next _ s c hs _ := by simp only [Demo.recorder]; omega
  keep_next _ _ _ _ h := h
  keep_extract _ _ _ h := h
  keep_score _ _ _ _ h := h
  keep_update _ _ _ _ _ h := h

theorem recorder_accepts : Demo.recorder.toLMOps.Accepts (fun _ s => 0 ≤ s) where
  extract _ _ _ := by simp [Demo.recorder]
  update _ _ _ _ _ := rfl

/-- A component whose transitions change when it counts: the hypotheses of C54. -/
theorem recorder_viewed : Demo.recorder.toLMOps.Viewed (fun _ s _ => s + 1) where
  next_eq _ _ _ := rfl
  inv := ⟨fun _ _ _ => rfl, fun _ _ => rfl, fun _ _ _ => rfl⟩

/-- A component that jumps by the number of updates it has seen: its transitions change when it
counts. -/
def jumper : Env Arith.unit Nat where
  start _ := 0
  next m s _ := (s + 1 + m, m)
  extract m _ := (some { symbols := [[97]], probs := [()], norm := () }, m)
  symScore m _ _ := ((), m)
  update m _ _ _ := (true, m + 1)
  orderN := id
  orderV := id

/-- C54 met non-trivially: after one update the stored component state of context "a" moved from 1
to 2, as the component's own transition did. -/
example : jumper.toLMOps.Viewed (fun m s _ => s + 1 + m) ∧
    ∃ h h', Reach jumper [0] Demo.cfg10 [.getNextState [97] (-1)] h ∧
      (h.states[1]?).map HubState.modelStates = some [1] ∧
      updateLMCounts jumper h 0 [97] 1 = .ok (true, h') ∧ h'.selfRecycled = false ∧
      (h'.states[1]?).map HubState.modelStates = some [2] :=
  ⟨⟨fun _ _ _ => rfl, ⟨fun _ _ _ => rfl, fun _ _ => rfl, fun _ _ _ => rfl⟩⟩,
    _, _, ⟨_, rfl, rfl⟩, rfl, rfl, rfl, rfl⟩

/-- C49, C51, C52 met: an accepted update in the middle of a session with room. -/
example : ∃ h h' s, Reach Demo.recorder [[]] Demo.cfg10
      [.getNextState [104, 101] (-1), .getLMScores [108] 2] h ∧ h.states.length = 4 ∧
    updateLMScores Demo.recorder h 2 [108, 111] 3 = .ok (.ok s, h') ∧
    h'.selfRecycled = false ∧ h'.models = [[(2, [108, 111])]] :=
  ⟨_, _, _, ⟨_, rfl, rfl⟩, rfl, rfl, rfl, rfl⟩

end Mozolm.Server
