import Verif.System.PairSpec
import Verif.System.Live
import Verif.System.Learning
import Verif.Server.Guard

/-!
# A bigram component inside the hub
-/

namespace Mozolm.System
open Mozolm.Hub
variable {A : Arith} {encode : Int → Str} {fuel : Nat} {V : List Int} {T : Pairs} {m : Bigram.Model}

/-! ## Positions and characters -/

/-- the row of a character -/
def rowOf (V : List Int) (c : Int) : Nat := (Bigram.position V c).getD 0

theorem under_get (hne : V ≠ []) (c : Int) : V[rowOf V c]? = some (under V c) := by
  unfold rowOf under
  cases hp : Bigram.position V c with
  | none =>
    rw [if_neg (Bigram.position_none.1 hp)]
    cases V with
    | nil => exact absurd rfl hne
    | cons v V => rfl
  | some j =>
    have := Bigram.position_lt hp
    rw [if_pos (List.mem_of_getElem? this)]
    exact this

theorem under_mem (hne : V ≠ []) (c : Int) : under V c ∈ V := List.mem_of_getElem? (under_get hne c)

theorem moves_pairs (hs : V.Pairwise (· < ·)) (hne : V ≠ []) {p q : Nat} {x y : Int} (hp : V[p]? = some x) (hq : V[q]? = some y)
    (cs : List Int) : ∀ {i : Nat} {a : Int}, V[i]? = some a →
      (Bigram.moves V i cs).count (p, q) = (pairsOf V a cs).count (x, y) := by
  induction cs with
  | nil => intro i a _; rfl
  | cons c cs ih =>
    intro i a ha
    simp only [Bigram.moves, pairsOf]
    cases hc : Bigram.position V c with
    | none =>
      rw [if_neg (Bigram.position_none.1 hc)]
      refine ih ?_
      cases V with
      | nil => exact absurd rfl hne
      | cons v V => rfl
    | some j =>
      have hj := Bigram.position_lt hc
      rw [if_pos (List.mem_of_getElem? hj)]
      simp only [List.count_cons, ih hj]
      congr 1
      have : ((i, j) == (p, q)) = ((a, c) == (x, y)) := by
        rw [Bool.eq_iff_iff]
        simp only [beq_iff_eq, Prod.mk.injEq]
        constructor
        · rintro ⟨rfl, rfl⟩
          rw [ha] at hp; rw [hj] at hq
          cases hp; cases hq; exact ⟨rfl, rfl⟩
        · rintro ⟨rfl, rfl⟩
          have e1 := Bigram.position_of_get hs ha
          have e2 := Bigram.position_of_get hs hp
          have e3 := Bigram.position_of_get hs hq
          rw [e1] at e2; rw [hc] at e3
          cases e2; cases e3; exact ⟨rfl, rfl⟩
      rw [this]

/-! ## The component and the table -/

/-- The model's counts are those of the table. -/
structure HoldsPairs (V : List Int) (T : Pairs) (m : Bigram.Model) : Prop where
  wf : Bigram.WF m
  vocab : m.utf8 = V
  count : ∀ (i j : Nat) (a b : Int), V[i]? = some a → V[j]? = some b → m.count i j = some (T a b)

theorem holds_tableOf (hw : Bigram.WF m) : HoldsPairs m.utf8 (tableOf m) m := by
  refine ⟨hw, rfl, fun i j a b ha hb => ?_⟩
  have e1 := Bigram.position_of_get hw.sorted ha
  have e2 := Bigram.position_of_get hw.sorted hb
  obtain ⟨x, hx, _⟩ := hw.count_some (lt_of_getElem?_eq_some ha) (lt_of_getElem?_eq_some hb)
  unfold Bigram.position at e1 e2
  unfold tableOf
  simp only [e1, e2]
  unfold Bigram.Model.count at hx ⊢
  rw [hx]; rfl

theorem HoldsPairs.row (h : HoldsPairs V T m) {i : Nat} {a : Int} (ha : V[i]? = some a) : m.counts[i]? = some (V.map (T a)) := by
  have hl := lt_of_getElem?_eq_some ha
  obtain ⟨row, hr⟩ := exists_getElem?_of_lt (l := m.counts) (i := i) (by rw [h.wf.rowsLen, h.vocab]; exact hl)
  rw [hr]
  congr 1
  have hlen := h.wf.rowLen row (List.mem_of_getElem? hr)
  rw [h.vocab] at hlen
  apply List.ext_getElem?
  intro j
  rw [List.getElem?_map]
  cases hj : V[j]? with
  | none =>
    have := List.getElem?_eq_none_iff.1 hj
    rw [Option.map_none, List.getElem?_eq_none_iff]; omega
  | some b =>
    have := h.count i j a b ha hj
    unfold Bigram.Model.count at this
    rw [hr] at this
    simpa using this

/-- Asking the component. -/
theorem HoldsPairs.extract (h : HoldsPairs V T m) (A : Arith) (encode : Int → Str) {s : Int} {c : Int}
    (hs : Bigram.stands V s = rowOf V c) :
    Bigram.extractLMScores A encode m s = .ok (T.reply A encode V c) := by
  have hne : V ≠ [] := h.vocab ▸ h.wf.ne
  have hfix : m.fix s = rowOf V c := by
    rw [Bigram.fix_eq, h.vocab]; exact hs
  have hr := h.row (under_get hne c)
  have hn := h.wf.sum _ _ hr
  simp only [Bigram.extractLMScores, hfix, hr, hn]
  rw [Bigram.scoreLoop_eq A encode m _ _ (i := 0) (us := V) (by rw [h.vocab]; rfl) (by simp)]
  simp only [ok_bind, Pairs.reply, Pairs.total]
  congr 1
  have e1 : (V.map encode).length = ((V.map (T (under V c))).map fun c_1 => A.ddiv (A.ofInt c_1) (A.ofInt (V.map (T (under V c))).sum)).length := by simp
  rw [List.map_fst_zip (by omega), List.map_snd_zip (by omega), List.map_map]
  rfl

/-- Counting, while the counts stay in range. -/
theorem HoldsPairs.update (h : HoldsPairs V T m) {s c : Int} (hs : Bigram.stands V s = rowOf V c) (cs : List Int) (n : Int)
    (hw : (T.add V c cs n).Within V) :
    ∃ m', Bigram.updateLMCounts m s cs n = .ok (true, m') ∧ HoldsPairs V (T.add V c cs n) m' := by
  have hne : V ≠ [] := h.vocab ▸ h.wf.ne
  have hsort : V.Pairwise (· < ·) := h.vocab ▸ h.wf.sorted
  by_cases hn : n ≤ 0
  · refine ⟨m, by simp [Bigram.updateLMCounts, hn], h.wf, h.vocab, fun i j a b ha hb => ?_⟩
    rw [h.count i j a b ha hb, Pairs.add, if_neg (by omega), Int.add_zero]
  · have hfix : m.fix s = rowOf V c := by
      rw [Bigram.fix_eq, h.vocab]; exact hs
    obtain ⟨l1, l2⟩ := Bigram.updateLoop_spec (cs := cs) h.wf (h.wf.fix_lt s) (n := n) (by omega)
    rw [hfix, h.vocab] at l1 l2
    obtain ⟨m', e⟩ := l2 (fun p q x hx => by
      obtain ⟨r1, r2, _⟩ := h.wf.count_range hx
      rw [h.vocab] at r1 r2
      obtain ⟨a, ha⟩ := exists_getElem?_of_lt r1
      obtain ⟨b, hb⟩ := exists_getElem?_of_lt r2
      rw [h.count p q a b ha hb] at hx
      cases hx
      rw [moves_pairs hsort hne ha hb cs (under_get hne c)]
      have := hw a (List.mem_of_getElem? ha) b (List.mem_of_getElem? hb)
      rw [Pairs.add, if_pos (by omega)] at this
      exact this)
    obtain ⟨w1, w2, _, w4⟩ := l1 m' e
    refine ⟨m', ?_, w1, w2, fun i j a b ha hb => ?_⟩
    · simp only [Bigram.updateLMCounts, if_neg hn, hfix, e, ok_bind]
    · rw [w4, h.count i j a b ha hb, Option.map_some, moves_pairs hsort hne ha hb cs (under_get hne c), Pairs.add, if_pos (by omega)]

theorem Pairs.le_add (V : List Int) (T : Pairs) (c : Int) (cs : List Int) (n : Int) (a b : Int) : T a b ≤ T.add V c cs n a b := by
  unfold Pairs.add
  split
  · have : 0 ≤ n * ((pairsOf V (under V c) cs).count (a, b) : Int) := Int.mul_nonneg (by omega) (by omega)
    omega
  · omega

/-! ## The component under the calls the hub makes of it -/

/-- Queries do not change the component. -/
theorem bigram_touch {x y : Component A} (hw : Bigram.WF m) (ht : Touch ((ops A encode fuel).guard (live encode fuel) ok) y x)
    (hy : y = .bigram m) : x = .bigram m := by
  classical
  induction ht with
  | refl => exact hy
  | next s c _ ih =>
    rw [ih]
    simp only [LMOps.guard]; split <;> rfl
  | extract s _ ih =>
    rw [ih]
    simp only [LMOps.guard]; split
    · obtain ⟨r, e, _⟩ := bigram_extract hw A encode s
      simp only [ops, extract, e, settle]
    · rfl
  | score s c _ ih =>
    rw [ih]
    simp only [LMOps.guard]; split
    · obtain ⟨r, e⟩ := bigram_score hw A s c
      simp only [ops, symScore, e, settle]
    · rfl

/-- Only a bigram model with the same vocabulary becomes a bigram model. -/
theorem bigram_back {a b : Component A} (ht : TouchU ((ops A encode fuel).guard (live encode fuel) ok) a b) (hb : b = .bigram m) :
    ∃ m0 : Bigram.Model, a = .bigram m0 ∧ m0.utf8 = m.utf8 := by
  classical
  induction ht generalizing m with
  | refl => exact ⟨m, hb, rfl⟩
  | @next b s c _ ih =>
    simp only [LMOps.guard] at hb
    split at hb
    · next hk =>
      cases b with
      | bigram mm => cases hb; exact ih rfl
      | ppm mm => simp only [ops, next] at hb; cases e : Ppm.nextState encode s c mm <;> simp [e, settle] at hb
      | char mm => simp only [ops, next] at hb; cases e : NGram.nextState encode fuel mm s c <;> simp [e, settle] at hb
      | word mm => simp only [ops, next] at hb; cases e : Word.nextState A encode fuel mm.static mm.imp s c <;> simp [e, settle] at hb
      | overflow => cases hb
      | crashed f => cases hb
    · exact ih hb
  | @extract b s _ ih =>
    simp only [LMOps.guard] at hb
    split at hb
    · next hk =>
      cases b with
      | bigram mm =>
        simp only [ops, extract] at hb
        cases e : Bigram.extractLMScores A encode mm s with
        | error f => simp [e, settle] at hb
        | ok r => simp only [e, settle, Component.bigram.injEq] at hb; subst hb; exact ih rfl
      | ppm mm => simp only [ops, extract] at hb; cases e : Ppm.extractLMScores s mm <;> simp [e, settle] at hb
      | char mm => simp only [ops, extract] at hb; cases e : NGram.extractLMScores fuel mm s <;> simp [e, settle] at hb
      | word mm => simp only [ops, extract] at hb; cases e : Word.extractLMScores A fuel mm s (Word.noScores A) <;> simp [e, settle] at hb
      | overflow => cases hb
      | crashed f => cases hb
    · exact ih hb
  | @score b s c _ ih =>
    simp only [LMOps.guard] at hb
    split at hb
    · next hk =>
      cases b with
      | bigram mm =>
        simp only [ops, symScore] at hb
        cases e : Bigram.symLMScore A mm s c with
        | error f => simp [e, settle] at hb
        | ok r => simp only [e, settle, Component.bigram.injEq] at hb; subst hb; exact ih rfl
      | ppm mm => simp only [ops, symScore] at hb; cases e : Ppm.symLMScore encode s c mm <;> simp [e, settle] at hb
      | char mm => simp only [ops, symScore] at hb; cases e : NGram.symLMScore encode fuel mm s c <;> simp [e, settle] at hb
      | word mm => simp only [ops, symScore] at hb; cases e : Word.symLMScore A fuel mm s c <;> simp [e, settle] at hb
      | overflow => cases hb
      | crashed f => cases hb
    · exact ih hb
  | @update b s cs n _ ih =>
    simp only [LMOps.guard] at hb
    split at hb
    · next hk =>
      cases b with
      | bigram mm =>
        have hw : Bigram.WF mm := hk.1
        simp only [ops, update] at hb
        cases e : Bigram.updateLMCounts mm s cs n with
        | error f => rw [e] at hb; simp only at hb; split at hb <;> cases hb
        | ok r =>
          rw [e] at hb
          simp only [Component.bigram.injEq] at hb
          obtain ⟨m0, e1, e2⟩ := ih rfl
          refine ⟨m0, e1, e2.trans ?_⟩
          subst hb
          unfold Bigram.updateLMCounts at e
          split at e
          · cases e; rfl
          · next hn =>
            obtain ⟨m', e3, e4⟩ := bind_ok.1 e
            cases e4
            exact ((Bigram.updateLoop_spec hw (hw.fix_lt s) (by omega)).1 _ e3).2.1.symm
      | ppm mm => simp only [ops, update] at hb; cases e : Ppm.updateLMCounts encode s cs n mm <;> simp [e, settle] at hb
      | char mm => cases hb
      | word mm => cases hb
      | overflow => cases hb
      | crashed f => cases hb
    · exact ih hb

/-! ## Every entry of the table refers to the row of its character -/

/-- The state that component `j`, if a bigram model, has for an entry is that of the entry's character. -/
structure Rows (encode : Int → Str) (fuel : Nat) (j : Nat) (h : Hub A (Component A)) : Prop where
  works : ∀ m ∈ h.models, live encode fuel m
  row : ∀ m : Bigram.Model, h.models[j]? = some (.bigram m) → ∀ (i : Nat) (st : HubState A.C), h.states[i]? = some st →
    Bigram.stands m.utf8 (st.modelState j) = rowOf m.utf8 st.sym

variable {orderN : List (Int × Nat) → List (Int × Nat)} {orderV : List (Str × A.C) → List (Str × A.C)}
  {h h' : Hub A (Component A)} {j : Nat}

theorem stands_next (hw : Bigram.WF m) (s c : Int) : Bigram.stands m.utf8 (Bigram.nextState m s c) = rowOf m.utf8 c := by
  have := hw.index' s c
  rw [this]
  unfold rowOf Bigram.stands
  cases hp : Bigram.position m.utf8 c with
  | none => simp
  | some i =>
    have := lt_of_getElem?_eq_some (Bigram.position_lt hp)
    simp only [Option.getD_some]
    rw [if_pos (by omega), Int.toNat_natCast]

theorem rowOf_zero (hw : Bigram.WF m) : rowOf m.utf8 0 = 0 := by
  unfold rowOf
  cases hp : Bigram.position m.utf8 0 with
  | none => rfl
  | some i =>
    simp only [Option.getD_some]
    have h1 := Bigram.position_lt hp
    by_contra hi
    have h2 := lt_of_getElem?_eq_some h1
    have h0 := hw.pos_len
    have := List.pairwise_iff_getElem.1 hw.sorted 0 i h0 h2 (by omega)
    have hn := hw.nonneg m.utf8[0] (List.getElem_mem h0)
    rw [List.getElem?_eq_getElem h2, Option.some.injEq] at h1
    omega

theorem rows_preserved (hf : (env A encode fuel orderN orderV).Fair) :
    Preserved ((env A encode fuel orderN orderV).guard (live encode fuel) ok) (Rows encode fuel j) (fun _ h => Rows encode fuel j h) := by
  classical
  have hfg : ((env A encode fuel orderN orderV).guard (live encode fuel) ok).Fair := hf.guard
  have hc := closedOn A encode fuel
  have hmodels : ∀ (h : Hub A (Component A)) ms, Rows encode fuel j h →
      TouchesU ((env A encode fuel orderN orderV).guard (live encode fuel) ok).toLMOps h.models ms → Rows encode fuel j { h with models := ms } := by
    intro h ms hr ht
    refine ⟨works_touches (env := env A encode fuel orderN orderV) hc ht hr.works, fun m hm i st hst => ?_⟩
    obtain ⟨a, e1, e2⟩ := Pointwise.get' ht hm
    obtain ⟨m0, rfl, e3⟩ := bigram_back e2 rfl
    rw [← e3]
    exact hr.row m0 e1 i st hst
  have hframe : ∀ (h h' : Hub A (Component A)), Rows encode fuel j h →
      Frame ((env A encode fuel orderN orderV).guard (live encode fuel) ok) h h' → Rows encode fuel j h' := by
    intro h h' hr hfr
    have h1 := hmodels h h'.models hr hfr.models.toU
    refine ⟨h1.works, fun m hm i st hst => ?_⟩
    obtain ⟨st0, e1, _, e3, _, e5⟩ := hfr.st i st hst
    have := h1.row m hm i st0 e1
    simp only [HubState.modelState, e5, e3] at this ⊢
    exact this
  have hnext : ∀ (h : Hub A (Component A)) (st : HubState A.C) (c : Int) (m : Bigram.Model), Rows encode fuel j h →
      (nextAll ((env A encode fuel orderN orderV).guard (live encode fuel) ok).toLMOps st c 0 h.models).2[j]? = some (.bigram m) →
      ∃ x, (nextAll ((env A encode fuel orderN orderV).guard (live encode fuel) ok).toLMOps st c 0 h.models).1[j]? = some x ∧
        Bigram.stands m.utf8 x = rowOf m.utf8 c := by
    intro h st c m hr hm
    obtain ⟨m0, f1, f2, f3⟩ := nextAll_get _ st c 0 h.models (j := j) (m' := .bigram m) hm
    rw [Nat.zero_add] at f2 f3
    have hlive := hr.works m0 (List.mem_of_getElem? f1)
    have ht : TouchU ((ops A encode fuel).guard (live encode fuel) ok) m0 (.bigram m) := by
      rw [f2]; exact .next _ _ (.refl _)
    obtain ⟨m1, rfl, e3⟩ := bigram_back ht rfl
    refine ⟨_, f3, ?_⟩
    have hw : Bigram.WF m1 := hlive
    have : ((env A encode fuel orderN orderV).guard (live encode fuel) ok).next (.bigram m1) (st.modelState j) c =
        (Bigram.nextState m1 (st.modelState j) c, .bigram m1) := by
      simp only [Env.guard, LMOps.guard]
      rw [if_pos ⟨hlive, trivial⟩]
      rfl
    rw [this, ← e3]
    exact stands_next hw (st.modelState j) c
  refine ⟨fun h ms _ hr ht => hmodels h ms hr ht, ?_, fun h s _ _ hr => hframe _ _ hr (bayesed_frame _ h s),
    fun h s _ _ hr => hframe _ _ hr (bayesed_frame _ h s), ?_⟩
  · intro h s st c hi hr hst hl hc0
    have hto := nextAll_touches ((env A encode fuel orderN orderV).guard (live encode fuel) ok).toLMOps st c 0 h.models
    have hi' := hi.setModels hto.length_eq.symm
    have hr1 := hmodels h _ hr hto.toU
    refine ⟨hr1.works, fun m hm i ist hist => ?_⟩
    have hm' : (nextAll ((env A encode fuel orderN orderV).guard (live encode fuel) ok).toLMOps st c 0 h.models).2[j]? = some (.bigram m) := hm
    have hw : Bigram.WF m := hr1.works _ (List.mem_of_getElem? hm')
    by_cases hv : i = victim h
    · subst hv
      obtain ⟨vst, v1, v2, v3, _⟩ := created_new (env := (env A encode fuel orderN orderV).guard (live encode fuel) ok)
        (ms := (nextAll ((env A encode fuel orderN orderV).guard (live encode fuel) ok).toLMOps st c 0 h.models).1) hfg hi' hst hl
      have v1' : (createdFrom ((env A encode fuel orderN orderV).guard (live encode fuel) ok) h s st c).states[victim h]? = some vst := v1
      rw [v1'] at hist; cases hist
      obtain ⟨x, e1, e2⟩ := hnext h st c m hr hm'
      simp only [HubState.modelState, v3, e1, v2]
      exact e2
    · obtain ⟨ost, host⟩ := exists_getElem?_of_lt (slot_lt (h := { h with models := (nextAll ((env A encode fuel orderN orderV).guard (live encode fuel) ok).toLMOps st c 0 h.models).2 }) hv (lt_of_getElem?_eq_some hist))
      obtain ⟨st', e1, e2, e3, _⟩ := created_other (env := (env A encode fuel orderN orderV).guard (live encode fuel) ok)
        (ms := (nextAll ((env A encode fuel orderN orderV).guard (live encode fuel) ok).toLMOps st c 0 h.models).1) hfg hi' hst hl (i := i) hv host
      have e1' : (createdFrom ((env A encode fuel orderN orderV).guard (live encode fuel) ok) h s st c).states[i]? = some st' := e1
      rw [e1'] at hist; cases hist
      unfold kept at e2 e3
      split at e2
      · next hk =>
        rw [if_pos hk] at e3
        have : ist.modelState j = 0 := by
          simp only [HubState.modelState, e3, startState, HubState.mk', List.getElem?_map, hm', Option.map_some]
          rfl
        rw [this, e2]
        show Bigram.stands m.utf8 0 = rowOf m.utf8 0
        rw [rowOf_zero hw]
        simp [Bigram.stands]
      · next hk =>
        rw [if_neg hk] at e3
        have := hr1.row m hm' i ost host
        simp only [HubState.modelState, e3, e2] at this ⊢
        exact this
  · intro h s k st kst c hi hr hst hl hk hp hsym
    have hto := nextAll_touches ((env A encode fuel orderN orderV).guard (live encode fuel) ok).toLMOps st c 0 h.models
    have hr1 := hmodels h _ hr hto.toU
    refine ⟨hr1.works, fun m hm i ist hist => ?_⟩
    have hm' : (nextAll ((env A encode fuel orderN orderV).guard (live encode fuel) ok).toLMOps st c 0 h.models).2[j]? = some (.bigram m) := hm
    obtain ⟨st0, e1, _, _, e4, _, _, e7, e8⟩ := verified_frameish hk hist
    by_cases hik : i = k
    · subst hik
      rw [hk] at e1; cases e1
      obtain ⟨x, f1, f2⟩ := hnext h st c m hr hm'
      simp only [HubState.modelState, e8 rfl, f1, e4, hsym]
      exact f2
    · have := e7 hik
      subst this
      exact hr1.row m hm' i ist e1

end Mozolm.System
