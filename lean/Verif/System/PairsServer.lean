import Verif.System.Pairs
import Verif.Hub.Points
import Verif.Hub.Ring

/-!
# A server with a bigram component: what requests make of the table of pairs
-/

namespace Mozolm.System
open Mozolm.Hub Mozolm.Server
variable {A : Arith} {encode : Int → Str} {fuel : Nat} {V : List Int} {T : Pairs} {m : Bigram.Model}
  {orderN : List (Int × Nat) → List (Int × Nat)} {orderV : List (Str × A.C) → List (Str × A.C)}
  {h h' : Hub A (Component A)} {j : Nat}

/-- the components, only asked about their own states -/
noncomputable abbrev penv (A : Arith) (encode : Int → Str) (fuel : Nat) (orderN : List (Int × Nat) → List (Int × Nat))
    (orderV : List (Str × A.C) → List (Str × A.C)) : Env A (Component A) :=
  (env A encode fuel orderN orderV).guard (live encode fuel) ok

/-- What is known of such a server. -/
structure Tallied (encode : Int → Str) (fuel : Nat) (orderN : List (Int × Nat) → List (Int × Nat))
    (orderV : List (Str × A.C) → List (Str × A.C)) (j : Nat) (V : List Int) (T : Pairs) (h : Hub A (Component A)) : Prop where
  own : Own (live encode fuel) ok h
  start : StartOK (penv A encode fuel orderN orderV) h
  linked : Linked h
  weight : j < h.weights.length
  rows : Rows encode fuel j h
  holds : T.Within V → ∃ m : Bigram.Model, h.models[j]? = some (.bigram m) ∧ HoldsPairs V T m

theorem Tallied.touches (hf : (env A encode fuel orderN orderV).Fair) (hr : Tallied encode fuel orderN orderV j V T h)
    (g : Good (penv A encode fuel orderN orderV) h h') (ht : Touches (penv A encode fuel orderN orderV).toLMOps h.models h'.models) :
    Tallied encode fuel orderN orderV j V T h' := by
  refine ⟨hr.own.good hf (closedOn _ _ _) g, g.pres _ _ (start_preserved hf.guard guard_start) hr.start,
    g.pres _ _ (linked_preserved hf.guard) hr.linked, by rw [g.const.weights]; exact hr.weight,
    g.pres _ _ (rows_preserved hf) hr.rows, fun hw => ?_⟩
  obtain ⟨m, h1, h2⟩ := hr.holds hw
  obtain ⟨x, h3, h4⟩ := Pointwise.get ht h1
  have := bigram_touch h2.wf h4 rfl
  subst this
  exact ⟨m, h3, h2⟩

theorem touches_extract {E : Env A (Component A)} {s : Int} {r : Option (LMScores A.D)}
    (he : Hub.extractLMScores E h s = .ok (r, h')) : Touches E.toLMOps h.models h'.models := by
  obtain ⟨ms, ht, rfl⟩ := extract_states he
  exact ht

/-- The components accept the counts. -/
theorem pairs_accepted (ho : Own (live encode fuel) ok h) {s : Nat} {st : HubState A.C} (hst : h.states[s]? = some st) {cs : List Int} {n : Int}
    {ws : List A.C} {b : Bool} {ms : List (Component A)}
    (he : updateLoop (penv A encode fuel orderN orderV) st cs n 0 ws h.models = .ok (b, ms)) : b = true := by
  refine updateLoop_all (okay := fun m s => live encode fuel m ∧ ok m s) (fun m s cs n hm => ?_) 0 _ _ _ _ (ho.at hst) he
  simp only [penv, Env.guard, LMOps.guard]
  rw [if_pos hm]
  exact update_accepted hm.1 hm.2 cs n

/-- Counting at an entry of the table. -/
theorem Tallied.counts (hr : Tallied encode fuel orderN orderV j V T h) {s : Nat} {st : HubState A.C} (hst : h.states[s]? = some st)
    {c : Int} (hc : T.Within V → Bigram.stands V (st.modelState j) = rowOf V c) {cs : List Int} {n : Int} {b : Bool} {ms : List (Component A)}
    (he : updateLoop (penv A encode fuel orderN orderV) st cs n 0 h.weights h.models = .ok (b, ms)) (hw : (T.add V c cs n).Within V) :
    ∃ m : Bigram.Model, ms[j]? = some (.bigram m) ∧ HoldsPairs V (T.add V c cs n) m := by
  have hbt := pairs_accepted hr.own hst he
  subst hbt
  have hw0 : T.Within V := fun a ha b hb => Int.le_trans (T.le_add V c cs n a b) (hw a ha b hb)
  obtain ⟨m, h1, h2⟩ := hr.holds hw0
  obtain ⟨y, e1, e2⟩ := (updateLoop_each _ _ _ _ he).1 j _ hr.weight h1
  have hat := hr.own.at hst j _ h1
  simp only [penv, Env.guard, LMOps.guard] at e1
  rw [if_pos hat, Nat.zero_add] at e1
  obtain ⟨m', k1, k2⟩ := h2.update (hc hw0) cs n hw
  change update encode (.bigram m) (st.modelState j) cs n = (true, y) at e1
  simp only [update, k1, Prod.mk.injEq, true_and] at e1
  subst e1
  exact ⟨m', e2, k2⟩

/-- The entry's character and the component's state for it. -/
theorem Tallied.row (hr : Tallied encode fuel orderN orderV j V T h) (hw : T.Within V) {s : Nat} {st : HubState A.C}
    (hst : h.states[s]? = some st) : Bigram.stands V (st.modelState j) = rowOf V st.sym := by
  obtain ⟨m, h1, h2⟩ := hr.holds hw
  have := hr.rows.row m h1 s st hst
  rw [h2.vocab] at this
  exact this

/-- Along a cached path the entries are kept while preparing for the counts. -/
theorem update_parts_path {E : Env A (Component A)} (hf : E.Fair) (hi : Inv h) {s : Nat} {cs : List Int} {n : Int}
    {r : Bool} {t : Nat} (hp : IsPath h s cs t) (hs : s < h.states.length) (he : updateLMCounts E h s cs n = .ok (r, h')) :
    ∃ h2 st b ms, Good E h h2 ∧ Keep h h2 ∧ Touches E.toLMOps h.models h2.models ∧ h2.selfRecycled = h.selfRecycled ∧
      h2.states[s]? = some st ∧ updateLoop E st cs n 0 h2.weights h2.models = .ok (b, ms) ∧
      (if b then verifyLoop E { h2 with models := ms } s cs else .ok (false, { h2 with models := ms })) = .ok (r, h') := by
  have hv : h.valid (s : Int) = true := by
    simp only [Hub.valid, Bool.and_eq_true, decide_eq_true_eq]; omega
  simp only [updateLMCounts, ensureStates_path hp, ok_bind, hv, if_true, Int.toNat_natCast] at he
  obtain ⟨h2, e2, he⟩ := bind_ok.1 he
  have hk : Good E h h2 ∧ Keep h h2 ∧ h2.selfRecycled = h.selfRecycled ∧ Touches E.toLMOps h.models h2.models := by
    split at e2
    · obtain ⟨h2', e2', f2, g2⟩ := historyLoop_path hf hi hp
      rw [e2] at e2'; cases e2'
      exact ⟨g2, f2.keep, f2.ghost, historyLoop_touches hf hi e2⟩
    · cases e2; exact ⟨Good.refl hi, Keep.refl _, rfl, Touches.refl _ _⟩
  obtain ⟨g2, k2, hg2, t2⟩ := hk
  obtain ⟨st, hst⟩ := exists_getElem?_of_lt hs
  obtain ⟨st2, hst2, _⟩ := k2 s st hst
  rw [hst2] at he
  simp only at he
  obtain ⟨⟨b, ms⟩, e3, he⟩ := bind_ok.1 he
  exact ⟨h2, st2, b, ms, g2, k2, t2, hg2, hst2, e3, he⟩

/-- With room, or for one character, walking leaves a cached path, and the entry it starts from as it was. -/
theorem walk_spare {E : Env A (Component A)} (hf : E.Fair) (hi : Inv h) {s : Nat} {st : HubState A.C} (hst : h.states[s]? = some st)
    {cs : List Int} (hcs : ∀ c ∈ cs, 0 ≤ c) (hsp : Spare h s cs.length ∨ cs.length ≤ 1 ∧ h'.selfRecycled = false) {w : Int}
    (he : Server.walk E h s cs = .ok (w, h')) :
    ∃ (t : Nat) (st' : HubState A.C), w = t ∧ IsPath h' s cs t ∧ h'.states[s]? = some st' ∧ (s ≠ 0 → st'.modelStates = st.modelStates) := by
  rw [walk_context hf hi hcs] at he
  have hs := lt_of_getElem?_eq_some hst
  rcases hsp with (h1 | h1) | ⟨h1, hg⟩
  · obtain ⟨t, h1, f1, _, f3, f4, _⟩ := contextLoop_room hf hi hs hcs h1
    rw [he] at f1; cases f1
    obtain ⟨st', k1, k2, _⟩ := f3 s st hst
    exact ⟨t, st', rfl, f4, k1, fun _ => k2⟩
  · obtain ⟨t, h2, f1, _, f3, f4, _⟩ := contextLoop_turns hf hi hs hcs h1
    rw [he] at f1; cases f1
    obtain ⟨st', k1, k2, _⟩ := f3 s st hst h1
    exact ⟨t, st', rfl, f4, k1, fun _ => k2⟩
  · match cs, h1 with
    | [], _ =>
      cases he
      exact ⟨s, st, rfl, rfl, hst, fun _ => rfl⟩
    | [d], _ =>
      simp only [contextLoop] at he
      obtain ⟨⟨r1, h1⟩, e1, he⟩ := bind_ok.1 he
      obtain ⟨g1, o1⟩ := nextState_good hf hi e1
      obtain ⟨k, rfl, _, hk, _, sst, s1, s2⟩ := o1.range hf hi (hcs d (by simp))
      have hsrc : source h (s : Int) = s := by
        have := source_valid (h := h) (s := (s : Int)) (by omega) (by omega)
        omega
      rw [hsrc] at s1
      simp only [if_neg (show ¬ ((k : Int) < 0) by omega), Except.ok.injEq, Prod.mk.injEq] at he
      obtain ⟨rfl, rfl⟩ := he
      refine ⟨k, sst, rfl, ⟨sst, k, s1, s2, rfl⟩, s1, fun hs0 => ?_⟩
      cases o1 with
      | cached _ st' k' hst' hk' => rw [hst] at s1; cases s1; rfl
      | new hc st' hst' hk' =>
        have hto := nextAll_touches E.toLMOps st' d 0 h.models
        have hi' := hi.setModels hto.length_eq.symm
        have hfr := bayesed_frame E (createdFrom E h (source h s) st' d) (victim h)
        have hgv : victim h ≠ source h s := by
          have : (createdFrom E h (source h s) st' d).selfRecycled = false := by
            rw [← hfr.ghost]; exact hg
          simp only [createdFrom, created, Bool.or_eq_false_iff, beq_eq_false_iff_ne] at this
          exact this.2
        have hne : s ≠ victim { h with models := (nextAll E.toLMOps st' d 0 h.models).2 } := by
          show s ≠ victim h
          rw [hsrc] at hgv
          exact fun e => hgv e.symm
        obtain ⟨st2, e1, _, e3, _⟩ := created_other (env := E)
          (ms := (nextAll E.toLMOps st' d 0 h.models).1) hf hi' hst' hk' hne hst
        rw [kept_ne_start (fun x => hs0 x.1)] at e3
        obtain ⟨st3, g1, _, _, _, g5⟩ := hfr.symm_st e1
        have : some sst = some st3 := s1.symm.trans g1
        cases this
        exact g5.trans e3
    | _ :: _ :: _, h1 => simp at h1

theorem stateSym_get {s : Nat} {st : HubState A.C} (hst : h.states[s]? = some st) : stateSym h (s : Int) = st.sym := by
  unfold stateSym
  rw [if_neg (by omega), Int.toNat_natCast, hst]

theorem stateSym_zero {E : Env A (Component A)} (hS : StartOK E h) : stateSym h 0 = 0 := by
  obtain ⟨st, e1, _, e3, e4⟩ := hS
  rw [show (0 : Int) = ((0 : Nat) : Int) from rfl, stateSym_get e1]
  assumption

/-- One call of `UpdateLMCounts` after the walk. -/
theorem Tallied.learn (hf : (env A encode fuel orderN orderV).Fair) (hr : Tallied encode fuel orderN orderV j V T h)
    {s : Nat} {st : HubState A.C} (hst : h.states[s]? = some st) {cs : List Int} {w : Int} {h1 : Hub A (Component A)}
    (hwk : Server.walk (penv A encode fuel orderN orderV) h s cs = .ok (w, h1)) {n : Int} {u : Bool}
    (he : updateLMCounts (penv A encode fuel orderN orderV) h1 s cs n = .ok (u, h')) :
    ∃ c, ((∀ c ∈ cs, 0 ≤ c) → (Spare h s cs.length ∨ cs.length ≤ 1 ∧ h1.selfRecycled = false) → c = st.sym) ∧ (s = 0 → c = 0) ∧
      Tallied encode fuel orderN orderV j V (T.add V c cs n) h' := by
  classical
  have hc := closedOn A encode fuel
  have hfg : (penv A encode fuel orderN orderV).Fair := hf.guard
  obtain ⟨_, _, hwk', g1, ht1, _⟩ := walk_ok hfg hr.own.inv (s : Int) cs
  rw [hwk] at hwk'; cases hwk'
  have hr1 := hr.touches hf g1 ht1
  have gall := update_good hfg hr1.own.inv he
  have hs := lt_of_getElem?_eq_some hst
  have hsym0 : s = 0 → st.sym = 0 := by
    rintro rfl
    rw [← stateSym_get hst]
    exact stateSym_zero hr.start
  have fin : ∀ c, ((T.add V c cs n).Within V → ∃ m : Bigram.Model, h'.models[j]? = some (.bigram m) ∧ HoldsPairs V (T.add V c cs n) m) →
      Tallied encode fuel orderN orderV j V (T.add V c cs n) h' := fun c hh =>
    ⟨hr1.own.good hf hc gall, gall.pres _ _ (start_preserved hfg guard_start) hr1.start,
      gall.pres _ _ (linked_preserved hfg) hr1.linked, by rw [gall.const.weights]; exact hr1.weight,
      gall.pres _ _ (rows_preserved hf) hr1.rows, hh⟩
  by_cases hsp : (∀ c ∈ cs, 0 ≤ c) ∧ (Spare h s cs.length ∨ cs.length ≤ 1 ∧ h1.selfRecycled = false)
  · refine ⟨st.sym, fun _ _ => rfl, hsym0, fin _ fun hw => ?_⟩
    obtain ⟨t, st1, rfl, hp, k1, k2⟩ := walk_spare hfg hr.own.inv hst hsp.1 hsp.2 hwk
    obtain ⟨h2, st2, b, ms, g2, kp, t2, _, hst2, hl, hv⟩ := update_parts_path hfg hr1.own.inv hp (lt_of_getElem?_eq_some k1) he
    have hr2 := hr1.touches hf g2 t2
    obtain ⟨st2', l1, l2, _⟩ := kp s st1 k1
    rw [hst2] at l1; cases l1
    obtain ⟨m, q1, q2⟩ := hr2.counts hst2 (c := st.sym) (fun hw0 => by
      by_cases hs0 : s = 0
      · have h1 := hr2.row hw0 hst2
        rw [hsym0 hs0]
        have h2 : st2.sym = 0 := by
          subst hs0
          rw [← stateSym_get hst2]
          exact stateSym_zero hr2.start
        rw [← h2]; exact h1
      · have := hr.row hw0 hst
        simp only [HubState.modelState, l2, k2 hs0] at this ⊢
        exact this) hl hw
    have ht3 : Touches (penv A encode fuel orderN orderV).toLMOps ms h'.models := by
      split at hv
      · exact verifyLoop_touches (h := { h2 with models := ms }) hv
      · simp only [Except.ok.injEq, Prod.mk.injEq] at hv
        rw [← hv.2]
        exact Touches.refl _ _
    obtain ⟨x, q3, q4⟩ := Pointwise.get ht3 q1
    have := bigram_touch q2.wf q4 rfl
    subst this
    exact ⟨m, q3, q2⟩
  · obtain ⟨h2, g, ht, hcase⟩ := update_parts hfg hr1.own.inv he
    have hr2 := hr1.touches hf g ht
    have hle : h.states.length ≤ h1.states.length := g1.const.len
    rcases hcase with ⟨hv, _, _⟩ | ⟨hv, st2, b, ms, hst2, hl, ht3, -⟩
    · exfalso
      have : h1.valid (s : Int) = true := by
        simp only [Hub.valid, Bool.and_eq_true, decide_eq_true_eq]; omega
      rw [this] at hv; cases hv
    · rw [Int.toNat_natCast] at hst2
      refine ⟨st2.sym, fun a b => absurd ⟨a, b⟩ hsp, ?_, fin _ fun hw => ?_⟩
      · rintro rfl
        rw [← stateSym_get hst2]
        exact stateSym_zero hr2.start
      · obtain ⟨m, q1, q2⟩ := hr2.counts hst2 (c := st2.sym) (fun hw0 => hr2.row hw0 hst2) hl hw
        obtain ⟨x, q3, q4⟩ := Pointwise.get ht3 q1
        have := bigram_touch q2.wf q4 rfl
        subst this
        exact ⟨m, q3, q2⟩

/-- One request. -/
theorem Tallied.serve (hf : (env A encode fuel orderN orderV).Fair) (hr : Tallied encode fuel orderN orderV j V T h)
    {r : Request} (he : Server.serve (env A encode fuel orderN orderV) h r = .ok h') :
    ∃ T', Adds V h h' r T T' ∧ Tallied encode fuel orderN orderV j V T' h' := by
  have hc := closedOn A encode fuel
  have hfg : (penv A encode fuel orderN orderV).Fair := hf.guard
  rw [serve_guard hf hc hr.own] at he
  change Server.serve (penv A encode fuel orderN orderV) h r = .ok h' at he
  cases r with
  | getNextState ctx s =>
    simp only [Server.serve] at he
    obtain ⟨⟨a, h1⟩, e1, e2⟩ := bind_ok.1 he
    cases e2
    obtain ⟨⟨c, h2⟩, e3, e4⟩ := bind_ok.1 e1
    cases e4
    simp only [contextState] at e3
    obtain ⟨_, _, e3', g, _⟩ := contextLoop_ok hfg hr.own.inv (if toInt32 s < 0 then 0 else toInt32 s) ctx
    rw [e3] at e3'; cases e3'
    exact ⟨T, rfl, hr.touches hf g (Hub.contextLoop_touches hfg hr.own.inv e3)⟩
  | getLMScores ctx s =>
    simp only [Server.serve] at he
    obtain ⟨⟨a, h1⟩, e1, e2⟩ := bind_ok.1 he
    cases e2
    obtain ⟨⟨c, h2⟩, e3, e4⟩ := bind_ok.1 e1
    obtain ⟨⟨x, h3⟩, e5, e6⟩ := bind_ok.1 e4
    simp only [contextState] at e3
    obtain ⟨_, _, e3', g, _⟩ := contextLoop_ok hfg hr.own.inv (if toInt32 s < 0 then 0 else toInt32 s) ctx
    rw [e3] at e3'; cases e3'
    have hr2 := hr.touches hf g (Hub.contextLoop_touches hfg hr.own.inv e3)
    have hr3 := hr2.touches hf (extract_good hr2.own.inv e5) (touches_extract e5)
    refine ⟨T, rfl, ?_⟩
    cases x <;> (cases e6; exact hr3)
  | updateLMScores s cs n =>
    simp only [Server.serve] at he
    obtain ⟨⟨a, h1⟩, e1, e2⟩ := bind_ok.1 he
    cases e2
    obtain ⟨⟨w, h2⟩, e3, e4⟩ := bind_ok.1 e1
    obtain ⟨⟨u, h3⟩, e5, e6⟩ := bind_ok.1 e4
    obtain ⟨_, _, e3', g, ht, _⟩ := walk_ok hfg hr.own.inv (toInt32 s) cs
    rw [e3] at e3'; cases e3'
    have after : ∀ T', Tallied encode fuel orderN orderV j V T' h3 → Tallied encode fuel orderN orderV j V T' h1 := by
      intro T' hr3
      cases u with
      | false =>
        simp only [Bool.false_eq_true, if_false, Except.ok.injEq, Prod.mk.injEq] at e6
        rw [← e6.2]; exact hr3
      | true =>
        simp only [if_true] at e6
        obtain ⟨⟨x, h4⟩, e8, e9⟩ := bind_ok.1 e6
        have hr4 := hr3.touches hf (extract_good hr3.own.inv e8) (touches_extract e8)
        cases x <;> (cases e9; exact hr4)
    by_cases hv : 0 ≤ toInt32 s ∧ toInt32 s < h.states.length
    · obtain ⟨k, hk⟩ : ∃ k : Nat, toInt32 s = k := ⟨_, toNat_eq hv.1⟩
      rw [hk] at e3 e5 hv
      obtain ⟨st, hst⟩ := exists_getElem?_of_lt (l := h.states) (i := k) (by omega)
      obtain ⟨c, c1, c2, c3⟩ := hr.learn hf hst e3 e5
      refine ⟨_, .inr ⟨by omega, c, fun _ a b => ?_, fun h0 => c2 (by omega), rfl⟩, after _ c3⟩
      rw [hk] at b ⊢
      rw [stateSym_get hst]
      refine c1 a (b.imp id fun b => ⟨b.1, ?_⟩)
      have g3 := update_good hfg g.inv e5
      refine ghost_false g3 ?_
      cases u with
      | false =>
        simp only [Bool.false_eq_true, if_false, Except.ok.injEq, Prod.mk.injEq] at e6
        rw [e6.2]; exact b.2
      | true =>
        simp only [if_true] at e6
        obtain ⟨⟨x, h4⟩, e8, e9⟩ := bind_ok.1 e6
        refine ghost_false (extract_good g3.inv e8) ?_
        have : h4 = h1 := by cases x <;> (cases e9; rfl)
        rw [this]; exact b.2
    · have hr2 := hr.touches hf g ht
      have gall := update_good hfg hr2.own.inv e5
      obtain ⟨h2', g2, t2, hcase⟩ := update_parts hfg hr2.own.inv e5
      have hr3 := hr2.touches hf g2 t2
      rcases hcase with ⟨_, _, rfl⟩ | ⟨hval, st2, b, ms, hst2, hl, ht3, -⟩
      · exact ⟨T, .inl ⟨hv, rfl⟩, after _ hr3⟩
      · rw [valid_iff] at hval
        have hlen := hr.own.inv.pos
        refine ⟨T.add V st2.sym cs n, .inr ⟨hval.1, st2.sym, fun h1 => absurd ⟨hval.1, h1⟩ hv, fun h0 => ?_, rfl⟩, after _ ?_⟩
        · rw [h0] at hv
          exact absurd ⟨Int.le_refl 0, by omega⟩ hv
        · refine ⟨hr2.own.good hf hc gall, gall.pres _ _ (start_preserved hfg guard_start) hr2.start,
            gall.pres _ _ (linked_preserved hfg) hr2.linked, by rw [gall.const.weights]; exact hr2.weight,
            gall.pres _ _ (rows_preserved hf) hr2.rows, fun hw => ?_⟩
          obtain ⟨m, q1, q2⟩ := hr3.counts hst2 (c := st2.sym) (fun hw0 => hr3.row hw0 hst2) hl hw
          obtain ⟨x, q3, q4⟩ := Pointwise.get ht3 q1
          have := bigram_touch q2.wf q4 rfl
          subst this
          exact ⟨m, q3, q2⟩

/-! ## Replies -/

/-- The state for a text ends with the last character of the text. -/
theorem contextLoop_last {E : Env A (Component A)} (hf : E.Fair) {cs : List Int} :
    ∀ {h h' : Hub A (Component A)} {s r : Int}, Inv h → (∀ c ∈ cs, 0 ≤ c) → contextLoop E h s cs = .ok (r, h') →
    ∀ c, cs.getLast? = some c → ∃ (k : Nat) (kst : HubState A.C), r = k ∧ h'.states[k]? = some kst ∧ kst.sym = c := by
  induction cs with
  | nil => intro _ _ _ _ _ _ _ c hc; cases hc
  | cons d cs ih =>
    intro h h' s r hi hcs he c hc
    simp only [contextLoop] at he
    obtain ⟨⟨r1, h1⟩, e1, e2⟩ := bind_ok.1 he
    obtain ⟨g1, o1⟩ := nextState_good hf hi e1
    obtain ⟨k, rfl, _, _, ⟨kst, k1, k2⟩, _⟩ := o1.range hf hi (hcs d List.mem_cons_self)
    cases cs with
    | nil =>
      simp only [contextLoop, if_neg (show ¬ ((k : Int) < 0) by omega), Except.ok.injEq, Prod.mk.injEq] at e2
      obtain ⟨rfl, rfl⟩ := e2
      simp only [List.getLast?_singleton, Option.some.injEq] at hc
      exact ⟨k, kst, rfl, k1, k2.trans hc⟩
    | cons d2 cs =>
      rw [List.getLast?_cons_cons] at hc
      exact ih g1.inv (fun c hc => hcs c (List.mem_cons_of_mem _ hc)) e2 c hc

/-- A cached path ends with the last character. -/
theorem path_last (hi : Inv h) {cs : List Int} : ∀ {s t : Nat}, IsPath h s cs t → ∀ c, cs.getLast? = some c →
    ∃ kst : HubState A.C, h.states[t]? = some kst ∧ kst.sym = c := by
  induction cs with
  | nil => intro _ _ _ c hc; cases hc
  | cons d cs ih =>
    intro s t hp c hc
    obtain ⟨st, k, e1, e2, e3⟩ := hp
    cases cs with
    | nil =>
      cases e3
      simp only [List.getLast?_singleton, Option.some.injEq] at hc
      obtain ⟨_, _, _, kst, h3, h4⟩ := (hi.st _ st e1).edges _ _ (lookup_mem e2)
      exact ⟨kst, h3, h4.trans hc⟩
    | cons d2 cs =>
      rw [List.getLast?_cons_cons] at hc
      exact ih e3 c hc

/-- What the hub says at an entry, with one model. -/
theorem Tallied.tells (hr : Tallied encode fuel orderN orderV 0 V T h) (hT : T.Within V) (hw : h.weights.length < 2)
    {k : Nat} {st : HubState A.C} (hst : h.states[k]? = some st) :
    ∃ h', Hub.extractLMScores (penv A encode fuel orderN orderV) h k = .ok (some (T.reply A encode V st.sym), h') := by
  obtain ⟨m, h1, h2⟩ := hr.holds hT
  have hlt := lt_of_getElem?_eq_some hst
  have hv : h.valid (k : Int) = true := by
    simp only [Hub.valid, Bool.and_eq_true, decide_eq_true_eq]; omega
  have hx := h2.extract A encode (hr.row hT hst)
  cases hm : h.models with
  | nil => rw [hm] at h1; cases h1
  | cons y ms =>
    rw [hm] at h1
    cases h1
    refine ⟨{ h with models := .bigram m :: ms }, ?_⟩
    rw [← hr.own.extract (env := env A encode fuel orderN orderV)]
    simp only [Hub.extractLMScores, hv, Bool.not_true, Bool.false_eq_true, if_false, Int.toNat_natCast, hst, hw, if_true, hm]
    change Except.ok ((extract encode fuel (.bigram m) (st.modelState 0)).1, _) = _
    simp only [env, ops, extract, hx, settle]

/-- Asking. -/
theorem Tallied.asks (hf : (env A encode fuel orderN orderV).Fair) (hr : Tallied encode fuel orderN orderV 0 V T h) (hT : T.Within V)
    (hw : h.weights.length < 2) : PairsAsked (env A encode fuel orderN orderV) encode V T h := by
  intro text x ht rep h2 he
  have hfg : (penv A encode fuel orderN orderV).Fair := hf.guard
  rw [getLMScores_guard hf (closedOn A encode fuel) hr.own] at he
  change Server.getLMScores (penv A encode fuel orderN orderV) h text x = .ok (rep, h2) at he
  obtain ⟨⟨r, h1⟩, e1, e2⟩ := bind_ok.1 he
  obtain ⟨⟨y, h3⟩, e3, e4⟩ := bind_ok.1 e2
  simp only [contextState] at e1
  have hrep : rep = (match y with | some r => .ok r | none => .invalidArgument) := by
    cases y <;> (cases e4; rfl)
  obtain ⟨_, _, e1', g1, _⟩ := contextLoop_ok hfg hr.own.inv (if toInt32 x < 0 then 0 else toInt32 x) text
  rw [e1] at e1'; cases e1'
  have hr1 := hr.touches hf g1 (Hub.contextLoop_touches hfg hr.own.inv e1)
  have hw1 : h1.weights.length < 2 := by rw [g1.const.weights]; exact hw
  have say : ∀ (k : Nat) (st : HubState A.C), r = k → h1.states[k]? = some st → rep = .ok (T.reply A encode V st.sym) := by
    rintro k st rfl hst
    obtain ⟨h4, q⟩ := hr1.tells hT hw1 hst
    rw [e3] at q; cases q
    exact hrep
  cases hlast : text.getLast? with
  | some c =>
    obtain ⟨k, kst, rfl, k1, k2⟩ := contextLoop_last hfg hr.own.inv ht e1 c hlast
    have hne : text ≠ [] := by rintro rfl; cases hlast
    rw [if_neg (fun h => hne h.1), say k kst rfl k1, k2]
    simp only [lastAt, hlast]
  | none =>
    have hnil : text = [] := List.getLast?_eq_none_iff.1 hlast
    subst hnil
    simp only [contextLoop, Except.ok.injEq, Prod.mk.injEq] at e1
    obtain ⟨e1, rfl⟩ := e1
    by_cases hx : (h.states.length : Int) ≤ toInt32 x
    · rw [if_pos ⟨rfl, hx⟩, hrep]
      have hv : h.valid r = false := by
        rw [Bool.eq_false_iff]
        intro hv
        rw [valid_iff] at hv
        split at e1 <;> omega
      simp only [Hub.extractLMScores, hv, Bool.not_false, if_true, Except.ok.injEq, Prod.mk.injEq] at e3
      cases e3.1
      rfl
    · rw [if_neg (fun h => hx h.2)]
      have hpos := hr.own.inv.pos
      simp only [lastAt, List.getLast?_nil]
      split at e1
      · next hneg =>
        rw [if_pos hneg]
        obtain ⟨st, hst⟩ := exists_getElem?_of_lt (l := h.states) (i := 0) hpos
        rw [say 0 st (by omega) hst, ← stateSym_get hst]
        have := stateSym_zero hr.start
        rw [show ((0 : Nat) : Int) = 0 from rfl, this]
      · next hneg =>
        rw [if_neg hneg]
        obtain ⟨k, hk⟩ : ∃ k : Nat, toInt32 x = k := ⟨_, toNat_eq (by omega)⟩
        obtain ⟨st, hst⟩ := exists_getElem?_of_lt (l := h.states) (i := k) (by omega)
        rw [say k st (by omega) hst, hk, stateSym_get hst]

theorem trivial_points : (env A encode fuel orderN orderV).toLMOps.Points (live encode fuel) ok (fun _ _ _ => True) :=
  ⟨closedOn A encode fuel, fun _ _ _ _ _ _ _ => trivial, fun _ _ _ _ _ _ _ _ => trivial, fun _ _ _ _ _ _ _ => trivial,
    fun _ _ _ _ _ _ _ _ => trivial⟩

/-- Teaching: the table afterwards, the reply, and the way to the state afterwards. -/
theorem Tallied.taught (hf : (env A encode fuel orderN orderV).Fair) (hr : Tallied encode fuel orderN orderV 0 V T h)
    (hw : h.weights.length < 2) {x : Int} {cs : List Int} {n : Int} (hx0 : 0 ≤ toInt32 x) (hx1 : toInt32 x < h.states.length)
    (hcs : ∀ c ∈ cs, 0 ≤ c) (hsp : Spare h (toInt32 x).toNat cs.length ∨ cs.length ≤ 1) {rep : Reply (LMScores A.D)}
    (he : updateLMScores (env A encode fuel orderN orderV) h x cs n = .ok (rep, h')) (hg : h'.selfRecycled = false)
    (hT : (T.add V (stateSym h (toInt32 x)) cs n).Within V) :
    Tallied encode fuel orderN orderV 0 V (T.add V (stateSym h (toInt32 x)) cs n) h' ∧
    rep = .ok ((T.add V (stateSym h (toInt32 x)) cs n).reply A encode V (lastAt h x cs)) ∧
    ∃ t : Nat, IsPath h' (toInt32 x).toNat cs t ∧ t < h'.states.length ∧ stateSym h' (t : Int) = lastAt h x cs := by
  have hc := closedOn A encode fuel
  have hfg : (penv A encode fuel orderN orderV).Fair := hf.guard
  rw [updateLMScores_guard hf hc hr.own] at he
  change Server.updateLMScores (penv A encode fuel orderN orderV) h x cs n = .ok (rep, h') at he
  obtain ⟨s, hs⟩ : ∃ s : Nat, toInt32 x = s := ⟨_, toNat_eq hx0⟩
  obtain ⟨⟨w, h1⟩, e1, e2⟩ := bind_ok.1 he
  obtain ⟨⟨u, h2⟩, e3, e4⟩ := bind_ok.1 e2
  rw [hs] at e1 e3 hx1 hsp hT ⊢
  rw [Int.toNat_natCast] at hsp ⊢
  obtain ⟨st, hst⟩ := exists_getElem?_of_lt (l := h.states) (i := s) (by omega)
  obtain ⟨_, _, e1', g1, ht1, _⟩ := walk_ok hfg hr.own.inv (s : Int) cs
  rw [e1] at e1'; cases e1'
  have g2 := update_good hfg g1.inv e3
  have hg2 : Good (penv A encode fuel orderN orderV) h2 h' := by
    cases u with
    | false =>
      simp only [Bool.false_eq_true, if_false, Except.ok.injEq, Prod.mk.injEq] at e4
      rw [← e4.2]; exact Good.refl g2.inv
    | true =>
      simp only [if_true] at e4
      obtain ⟨⟨y, h4⟩, e8, e9⟩ := bind_ok.1 e4
      have := extract_good g2.inv e8
      cases y <;> (cases e9; exact this)
  have hgh1 : h1.selfRecycled = false := ghost_false (g2.trans hg2) hg
  have hr1 := hr.touches hf g1 ht1
  replace hsp : Spare h s cs.length ∨ cs.length ≤ 1 ∧ h1.selfRecycled = false := hsp.imp id fun h => ⟨h, hgh1⟩
  -- the new table
  obtain ⟨c, c1, -, hr2⟩ := hr.learn hf hst e1 e3
  rw [c1 hcs hsp, ← stateSym_get hst] at hr2
  -- the path is still there
  obtain ⟨t, st1, rfl, hp1, hst1, -⟩ := walk_spare hfg hr.own.inv hst hcs hsp e1
  obtain ⟨ha, sta, b, ms, ga, ka, ta, hga, hsta, hl, hv⟩ := update_parts_path hfg hr1.own.inv hp1 (lt_of_getElem?_eq_some hst1) e3
  have hra := hr1.touches hf ga ta
  have hbt := pairs_accepted hra.own hsta hl
  subst hbt
  simp only [if_true] at hv
  have gb : Good (penv A encode fuel orderN orderV) ha { ha with models := ms } :=
    Good.setModels hra.own.inv (updateLoop_touches _ _ _ _ _ hl)
  have hob : Own (live encode fuel) ok { ha with models := ms } := hra.own.good hf hc gb
  have hpb : IsPath ({ ha with models := ms } : Hub A (Component A)) s cs t :=
    IsPath.keep (h := ha) (h' := { ha with models := ms }) (fun i ist e => ⟨ist, e, rfl, rfl, rfl, fun _ _ y => y⟩) (hp1.keep ka)
  obtain ⟨m2, hm2, -⟩ := hr2.holds hT
  have hlen2 : 0 < ms.length := by
    have h1 := g2.const.models.length_eq
    have h2 := (ga.trans gb).const.models.length_eq
    have := lt_of_getElem?_eq_some hm2
    simp only at h2
    omega
  obtain ⟨mb, hmb⟩ := exists_getElem?_of_lt hlen2
  obtain ⟨h5, _, f1, _, _, _, _, f6, _⟩ := verifyLoop_points hf trivial_points 0 (h := { ha with models := ms }) hob
    (gb.pres _ _ (linked_preserved hfg) hra.linked) (hga.trans hgh1) hsta hpb hmb (p := []) trivial
  change verifyLoop (penv A encode fuel orderN orderV) { ha with models := ms } s cs = _ at f1
  rw [f1] at hv
  cases hv
  simp only [if_true] at e4
  obtain ⟨⟨y, h4⟩, e8, e9⟩ := bind_ok.1 e4
  have hrep : h4 = h' ∧ rep = (match y with | some r => .ok r | none => .invalidArgument) := by
    cases y <;> (cases e9; exact ⟨rfl, rfl⟩)
  obtain ⟨rfl, hrep⟩ := hrep
  obtain ⟨ms', _, hms⟩ := extract_states e8
  have hw2 : h2.weights.length < 2 := by rw [g2.const.weights, g1.const.weights]; exact hw
  have say : ∀ tst : HubState A.C, h2.states[t]? = some tst →
      rep = .ok ((T.add V (stateSym h (s : Int)) cs n).reply A encode V tst.sym) := by
    intro tst htst
    obtain ⟨h9, q⟩ := hr2.tells hT hw2 htst
    rw [e8] at q; cases q
    exact hrep
  have fin : ∀ tst : HubState A.C, h2.states[t]? = some tst → tst.sym = lastAt h x cs →
      Tallied encode fuel orderN orderV 0 V (T.add V (stateSym h (s : Int)) cs n) h4 ∧
      rep = .ok ((T.add V (stateSym h (s : Int)) cs n).reply A encode V (lastAt h x cs)) ∧
      ∃ t : Nat, IsPath h4 s cs t ∧ t < h4.states.length ∧ stateSym h4 (t : Int) = lastAt h x cs := by
    intro tst htst hsym
    have htst4 : h4.states[t]? = some tst := by rw [hms]; exact htst
    refine ⟨hr2.touches hf (extract_good hr2.own.inv e8) (touches_extract e8), by rw [say tst htst, hsym], t, ?_,
      lt_of_getElem?_eq_some htst4, by rw [stateSym_get htst4, hsym]⟩
    rw [hms]
    exact IsPath.keep (h := h2) (h' := { h2 with models := ms' }) (fun i ist e => ⟨ist, e, rfl, rfl, rfl, fun _ _ y => y⟩) f6
  cases hlast : cs.getLast? with
  | some d =>
    obtain ⟨kst, k1, k2⟩ := path_last hr2.own.inv f6 d hlast
    exact fin kst k1 (by simp only [k2, lastAt, hlast])
  | none =>
    have hnil : cs = [] := List.getLast?_eq_none_iff.1 hlast
    subst hnil
    cases f6
    simp only [Server.walk, Except.ok.injEq, Prod.mk.injEq] at e1
    obtain ⟨-, rfl⟩ := e1
    simp only [verifyLoop, Except.ok.injEq, Prod.mk.injEq, true_and] at f1
    subst f1
    obtain ⟨st', k1, _, _, k2, _⟩ := ka s st hst
    refine fin st' k1 ?_
    rw [k2, ← stateSym_get hst]
    simp only [lastAt, List.getLast?_nil, hs, if_neg (show ¬ ((s : Int) < 0) by omega)]

/-- Teaching. -/
theorem Tallied.teaches (hf : (env A encode fuel orderN orderV).Fair) (hr : Tallied encode fuel orderN orderV 0 V T h)
    (hw : h.weights.length < 2) : PairsTaught (env A encode fuel orderN orderV) encode V T h :=
  fun _ _ _ hx0 hx1 hcs hsp _ _ he hg hT => (hr.taught hf hw hx0 hx1 hcs hsp he hg hT).2.1

end Mozolm.System
