import Verif.Hub.Trace

/-!
# Hub: what the states of one component stand for, while it learns

`den m s p`: the state `s` of the component `m` may stand for the text `p`.  Neither asking nor counting takes that
away.  Unlike in `Hub/Trace.lean` nothing is said about the answers.
-/

namespace Mozolm.Hub
variable {A : Arith} {σ : Type} {env : Env A σ} {live : σ → Prop} {ok : σ → Int → Prop}
  {den : σ → Int → List Int → Prop} {j : Nat}

/-- `den` follows the typed characters; calls do not take it away. -/
structure LMOps.Roots (ops : LMOps A σ) (live : σ → Prop) (ok : σ → Int → Prop) (den : σ → Int → List Int → Prop) : Prop where
  closed : ops.ClosedOn live ok
  start : ∀ m s p, live m → ok m s → den m s p → den m (ops.start m) []
  next : ∀ m s c p, live m → ok m s → den m s p → den (ops.next m s c).2 (ops.next m s c).1 (p ++ [c])
  keep_next : ∀ m s c x p, live m → ok m s → den m x p → den (ops.next m s c).2 x p
  keep_extract : ∀ m s x p, live m → ok m s → den m x p → den (ops.extract m s).2 x p
  keep_score : ∀ m s c x p, live m → ok m s → den m x p → den (ops.symScore m s c).2 x p
  keep_update : ∀ m s cs n x p, live m → ok m s → den m x p → den (ops.update m s cs n).2 x p

theorem LMOps.Roots.touch {ops : LMOps A σ} (hp : ops.Roots live ok den) {a b : σ} (h : TouchU (ops.guard live ok) a b)
    {x : Int} {p : List Int} (ha : den a x p) : den b x p := by
  classical
  induction h with
  | refl => exact ha
  | next s c _ ih =>
    simp only [LMOps.guard]; split
    · next hk => exact hp.keep_next _ _ _ _ _ hk.1 hk.2 ih
    · exact ih
  | extract s _ ih =>
    simp only [LMOps.guard]; split
    · next hk => exact hp.keep_extract _ _ _ _ hk.1 hk.2 ih
    · exact ih
  | score s c _ ih =>
    simp only [LMOps.guard]; split
    · next hk => exact hp.keep_score _ _ _ _ _ hk.1 hk.2 ih
    · exact ih
  | update s cs n _ ih =>
    simp only [LMOps.guard]; split
    · next hk => exact hp.keep_update _ _ _ _ _ _ hk.1 hk.2 ih
    · exact ih

/-- `lab i` is the text that entry `i` stands for, as to component `j`. -/
structure Labelled (den : σ → Int → List Int → Prop) (j : Nat) (h : Hub A σ) (lab : Nat → List Int) : Prop where
  zero : lab 0 = []
  holds : ∀ (i : Nat) (st : HubState A.C) (m : σ), h.states[i]? = some st → h.models[j]? = some m → den m (st.modelState j) (lab i)
  edge : ∀ (i : Nat) (st : HubState A.C), h.states[i]? = some st → ∀ c k, (c, k) ∈ st.nexts → lab k = lab i ++ [c]

theorem Labelled.setModels (ht : env.toLMOps.Roots live ok den) {h : Hub A σ} {lab : Nat → List Int} (hl : Labelled den j h lab) {ms : List σ}
    (hm : TouchesU (env.guard live ok).toLMOps h.models ms) : Labelled den j { h with models := ms } lab := by
  refine ⟨hl.zero, fun i st m hst hj => ?_, hl.edge⟩
  obtain ⟨m0, e1, e2⟩ := Pointwise.get' hm hj
  exact ht.touch e2 (hl.holds i st m0 hst e1)

/-- A new entry. -/
theorem created_labelled (hf : env.Fair) (ht : env.toLMOps.Roots live ok den) {h : Hub A σ} (ho : Own live ok h)
    {lab : Nat → List Int} (hl : Labelled den j h lab) {s : Nat} {st : HubState A.C}
    (hst : h.states[s]? = some st) {c : Int} (hn : HubState.lookup st.nexts c = none)
    (hg : (createdFrom (env.guard live ok) h s st c).selfRecycled = false) :
    Labelled den j (createdFrom (env.guard live ok) h s st c) (relabel lab (victim h) (lab s ++ [c])) := by
  classical
  have hi := ho.inv
  have hfg := hf.guard (live := live) (ok := ok)
  have hto := nextAll_touches (env.guard live ok).toLMOps st c 0 h.models
  have hi' := hi.setModels hto.length_eq.symm
  have hl' := hl.setModels ht hto.toU
  have hg0 : h.selfRecycled = false ∧ victim h ≠ s := by
    simp only [createdFrom, created, Bool.or_eq_false_iff, beq_eq_false_iff_ne] at hg
    exact hg
  have hv0 : victim h ≠ 0 := by have := victim_pos hi; omega
  obtain ⟨vst, v1, v2, v3, v4, v5, v6, v7, v8⟩ :=
    created_new (env := env.guard live ok) (ms := (nextAll (env.guard live ok).toLMOps st c 0 h.models).1) hfg hi' hst hn
  have v1 : (createdFrom (env.guard live ok) h s st c).states[victim h]? = some vst := v1
  refine ⟨by rw [relabel_ne (fun e => hv0 e.symm)]; exact hl.zero, ?_, ?_⟩
  · intro i ist m hist hj
    by_cases hiv : i = victim h
    · subst hiv
      rw [v1] at hist; cases hist
      obtain ⟨m0, f1, f2, f3⟩ := nextAll_get (env.guard live ok).toLMOps st c 0 h.models (j := j) (m' := m) hj
      rw [Nat.zero_add] at f2 f3
      have hat := ho.at hst j m0 f1
      rw [Nat.zero_add] at hat
      have hms : vst.modelState j = ((env.guard live ok).next m0 (st.modelState j) c).1 := by
        simp only [HubState.modelState, v3, f3]
      have hgd : (env.guard live ok).next m0 (st.modelState j) c = env.next m0 (st.modelState j) c := by
        simp only [Env.guard, LMOps.guard]; rw [if_pos hat]
      rw [relabel_self, hms, f2, hgd]
      exact ht.next _ _ _ _ hat.1 hat.2 (hl.holds s st m0 hst f1)
    · rw [relabel_ne hiv]
      obtain ⟨ost, host⟩ := exists_getElem?_of_lt (slot_lt (h := { h with models := (nextAll (env.guard live ok).toLMOps st c 0 h.models).2 }) hiv (lt_of_getElem?_eq_some hist))
      obtain ⟨st', e1, _, e3, _⟩ := created_other (env := env.guard live ok)
        (ms := (nextAll (env.guard live ok).toLMOps st c 0 h.models).1) hfg hi' hst hn (i := i) hiv host
      have e1 : (createdFrom (env.guard live ok) h s st c).states[i]? = some st' := e1
      rw [hist] at e1; cases e1
      have hm' : (nextAll (env.guard live ok).toLMOps st c 0 h.models).2[j]? = some m := hj
      have a3 := hl'.holds i ost m host hm'
      unfold kept at e3
      split at e3
      · next hw =>
        have : ist.modelState j = env.start m := by
          simp only [HubState.modelState, e3, startState, HubState.mk', List.getElem?_map, hm', Option.map_some]
          rfl
        rw [this, hw.1, hl.zero]
        have ho' : Own live ok { h with models := (nextAll (env.guard live ok).toLMOps st c 0 h.models).2 } :=
          ho.good hf ht.closed (Good.setModels hi hto.toU)
        have hat := ho'.at host j m hm'
        exact ht.start m _ _ hat.1 hat.2 (by rw [Nat.zero_add]; exact a3)
      · have : ist.modelState j = ost.modelState j := by simp [HubState.modelState, e3]
        rw [this]
        exact a3
  · intro i ist hist c' k hck
    rcases created_edge (env := env.guard live ok) hfg hi' hst hn hist hck with ⟨rfl, rfl, hkv⟩ | h'
    · have hkv : k = victim h := hkv
      subst hkv
      rw [relabel_self, relabel_ne (fun e => hg0.2 e.symm)]
    · obtain ⟨ost, host, heo, hiv, hkv, hns⟩ := h'
      have hiv : i ≠ victim h := hiv
      have hkv : k ≠ victim h := hkv
      rw [relabel_ne hiv, relabel_ne hkv]
      exact hl.edge i ost host c' k heo

/-- Recomputing a history changes none of it. -/
theorem bayesed_labelled (ht : env.toLMOps.Roots live ok den) {h : Hub A σ} {lab : Nat → List Int} {s : Nat}
    (hl : Labelled den j h lab) : Labelled den j (bayesed (env.guard live ok) h s) lab := by
  have hfr := bayesed_frame (env.guard live ok) h s
  refine ⟨hl.zero, fun i ist m hist hj => ?_, fun i ist hist c k hck => ?_⟩
  · obtain ⟨st0, e1, _, _, _, e5⟩ := hfr.st i ist hist
    obtain ⟨m0, f1, f2⟩ := Pointwise.get' hfr.models.toU hj
    have := ht.touch f2 (hl.holds i st0 m0 e1 f1)
    simp only [HubState.modelState, e5] at this ⊢
    exact this
  · obtain ⟨st0, e1, e2, _⟩ := hfr.st i ist hist
    rw [e2] at hck
    exact hl.edge i st0 e1 c k hck

/-- Correcting a state. -/
theorem verified_labelled (ht : env.toLMOps.Roots live ok den) {h : Hub A σ} (ho : Own live ok h) {lab : Nat → List Int}
    (hl : Labelled den j h lab) {s k : Nat} {st kst : HubState A.C} {c : Int} (hst : h.states[s]? = some st)
    (hn : HubState.lookup st.nexts c = some k) (hk : h.states[k]? = some kst) :
    Labelled den j (verified (env.guard live ok) h st c k kst) lab := by
  classical
  have hto := nextAll_touches (env.guard live ok).toLMOps st c 0 h.models
  have hl' := hl.setModels ht (ms := (nextAll (env.guard live ok).toLMOps st c 0 h.models).2) hto.toU
  have hlab := hl.edge s st hst c k (lookup_mem hn)
  refine ⟨hl.zero, ?_, ?_⟩
  · intro i ist m hist hj
    simp only [verified, List.getElem?_set] at hist
    split at hist
    · next e =>
      subst e
      rw [if_pos (lt_of_getElem?_eq_some hk)] at hist
      cases hist
      obtain ⟨m0, f1, f2, f3⟩ := nextAll_get (env.guard live ok).toLMOps st c 0 h.models (j := j) (m' := m) hj
      rw [Nat.zero_add] at f2 f3
      have hat := ho.at hst j m0 f1
      rw [Nat.zero_add] at hat
      have hgd : (env.guard live ok).next m0 (st.modelState j) c = env.next m0 (st.modelState j) c := by
        simp only [Env.guard, LMOps.guard]; rw [if_pos hat]
      simp only [HubState.modelState, f3]
      rw [f2]
      change den ((env.guard live ok).next m0 (st.modelState j) c).2 ((env.guard live ok).next m0 (st.modelState j) c).1 _
      rw [hgd, hlab]
      exact ht.next _ _ _ _ hat.1 hat.2 (hl.holds s st m0 hst f1)
    · exact hl'.holds i ist m hist hj
  · intro i ist hist c' k' hck
    obtain ⟨st0, e1, e2, _⟩ := verified_frameish hk hist
    rw [e2] at hck
    exact hl.edge i st0 e1 c' k' hck

/-- The whole table stands for texts, as to component `j`. -/
structure Origins (live : σ → Prop) (ok : σ → Int → Prop) (den : σ → Int → List Int → Prop) (j : Nat) (h : Hub A σ) : Prop where
  works : ∀ m ∈ h.models, live m
  all : AllOK (fun m s => live m → ok m s) h
  labels : h.selfRecycled = false → ∃ lab, Labelled den j h lab

theorem works_touches (hc : env.toLMOps.ClosedOn live ok) {l l' : List σ} (h : TouchesU (env.guard live ok).toLMOps l l')
    (hl : ∀ m ∈ l, live m) : ∀ m ∈ l', live m := by
  intro m hm
  obtain ⟨i, hi, rfl⟩ := List.mem_iff_getElem.1 hm
  obtain ⟨m0, e1, e2⟩ := Pointwise.get' h (List.getElem?_eq_getElem hi)
  exact LMOps.guard_live hc e2 (hl m0 (List.mem_of_getElem? e1))

theorem origins_preserved (hf : env.Fair) (ht : env.toLMOps.Roots live ok den) :
    Preserved (env.guard live ok) (Origins live ok den j) (fun _ h => Origins live ok den j h) where
  models h ms hi hd hto :=
    ⟨works_touches ht.closed hto hd.works, (allOK_preserved hf.guard ht.closed.guard).models h ms hi hd.all hto, fun hg => by
        obtain ⟨lab, hl⟩ := hd.labels hg
        exact ⟨lab, hl.setModels ht hto⟩⟩
  create h s st c hi hd hst hn hc :=
    ⟨works_touches ht.closed (nextAll_touches (env.guard live ok).toLMOps st c 0 h.models).toU hd.works,
      (allOK_preserved hf.guard ht.closed.guard).create h s st c hi hd.all hst hn hc, fun hg => by
        have hg0 : h.selfRecycled = false := by
          simp only [createdFrom, created, Bool.or_eq_false_iff] at hg; exact hg.1
        obtain ⟨lab, hl⟩ := hd.labels hg0
        exact ⟨_, created_labelled hf ht ⟨hi, hd.works, hd.all⟩ hl hst hn hg⟩⟩
  pend h s hi hlt hd :=
    ⟨works_touches ht.closed (bayesed_frame (env.guard live ok) h s).models.toU hd.works,
      (allOK_preserved hf.guard ht.closed.guard).hist h s hi hlt hd.all, fun hg => by
        have hg0 : h.selfRecycled = false := by rw [← (bayesed_frame (env.guard live ok) h s).ghost]; exact hg
        obtain ⟨lab, hl⟩ := hd.labels hg0
        exact ⟨lab, bayesed_labelled ht hl⟩⟩
  hist h s hi hlt hd :=
    ⟨works_touches ht.closed (bayesed_frame (env.guard live ok) h s).models.toU hd.works,
      (allOK_preserved hf.guard ht.closed.guard).hist h s hi hlt hd.all, fun hg => by
        have hg0 : h.selfRecycled = false := by rw [← (bayesed_frame (env.guard live ok) h s).ghost]; exact hg
        obtain ⟨lab, hl⟩ := hd.labels hg0
        exact ⟨lab, bayesed_labelled ht hl⟩⟩
  verify h s k st kst c hi hd hst hn hk hp hc :=
    ⟨works_touches ht.closed (nextAll_touches (env.guard live ok).toLMOps st c 0 h.models).toU hd.works,
      (allOK_preserved hf.guard ht.closed.guard).verify h s k st kst c hi hd.all hst hn hk hp hc, fun hg => by
        obtain ⟨lab, hl⟩ := hd.labels hg
        exact ⟨lab, verified_labelled ht ⟨hi, hd.works, hd.all⟩ hl hst hn hk⟩⟩

/-- One transition. -/
theorem NextOut.labelled (hf : env.Fair) (ht : env.toLMOps.Roots live ok den) {h h' : Hub A σ}
    (ho : Own live ok h) {lab : Nat → List Int} (hl : Labelled den j h lab)
    {s c r : Int} (o : NextOut (env.guard live ok) h s c r h') (hc : 0 ≤ c) (hg : h'.selfRecycled = false) :
    ∃ (k : Nat) (lab' : Nat → List Int), r = k ∧ k < h'.states.length ∧ Labelled den j h' lab' ∧
      lab' k = lab (source h s) ++ [c] := by
  cases o with
  | bad hb => omega
  | cached _ st k hst hk =>
    obtain ⟨_, _, _, kst, hkst, _⟩ := (ho.inv.st _ st hst).edges c k (lookup_mem hk)
    exact ⟨k, lab, rfl, lt_of_getElem?_eq_some hkst, hl, hl.edge _ st hst c k (lookup_mem hk)⟩
  | new _ st hst hk =>
    have hfr := bayesed_frame (env.guard live ok) (createdFrom (env.guard live ok) h (source h s) st c) (victim h)
    have hg1 : (createdFrom (env.guard live ok) h (source h s) st c).selfRecycled = false := by
      rw [← hfr.ghost]; exact hg
    have hl1 := created_labelled hf ht ho hl hst hk hg1
    have hlt : victim h < (createdFrom (env.guard live ok) h (source h s) st c).states.length := by
      have hto := nextAll_touches (env.guard live ok).toLMOps st c 0 h.models
      obtain ⟨vst, v1, _⟩ := created_new (env := env.guard live ok)
        (ms := (nextAll (env.guard live ok).toLMOps st c 0 h.models).1) hf.guard (ho.inv.setModels hto.length_eq.symm) hst hk
      exact lt_of_getElem?_eq_some v1
    refine ⟨victim h, _, rfl, by rw [hfr.len]; exact hlt, bayesed_labelled ht hl1, ?_⟩
    rw [relabel_self]

theorem contextLoop_labelled (hf : env.Fair) (ht : env.toLMOps.Roots live ok den) {cs : List Int} :
    ∀ {h h' : Hub A σ} {s : Nat} {r : Int} {lab : Nat → List Int}, Own live ok h →
    Labelled den j h lab → s < h.states.length → (∀ c ∈ cs, 0 ≤ c) →
    contextLoop (env.guard live ok) h s cs = .ok (r, h') → h'.selfRecycled = false →
    ∃ (k : Nat) (lab' : Nat → List Int), r = k ∧ k < h'.states.length ∧ Labelled den j h' lab' ∧
      lab' k = lab s ++ cs := by
  induction cs with
  | nil =>
    intro h h' s r lab ho hl hs hcs he hg
    simp only [contextLoop, Except.ok.injEq, Prod.mk.injEq] at he
    obtain ⟨rfl, rfl⟩ := he
    exact ⟨s, lab, rfl, hs, hl, by simp⟩
  | cons c cs ih =>
    intro h h' s r lab ho hl hs hcs he hg
    simp only [contextLoop] at he
    obtain ⟨⟨r1, h1⟩, e1, he⟩ := bind_ok.1 he
    obtain ⟨g, o⟩ := nextState_good (hf.guard (live := live) (ok := ok)) ho.inv e1
    have hsrc : source h (s : Int) = s := by
      have := source_valid (h := h) (s := (s : Int)) (by omega) (by omega)
      omega
    obtain ⟨r2, h2, e2, g2, _⟩ := contextLoop_ok (hf.guard (live := live) (ok := ok)) g.inv (if r1 < 0 then 0 else r1) cs
    have he' : contextLoop (env.guard live ok) h1 (if r1 < 0 then 0 else r1) cs = .ok (r, h') := he
    rw [he'] at e2; cases e2
    have hg1 : h1.selfRecycled = false := by
      cases hb : h1.selfRecycled with
      | false => rfl
      | true => rw [g2.const.ghost hb] at hg; cases hg
    obtain ⟨k, lab1, rfl, hk, hl1, hlab⟩ := o.labelled hf ht ho hl (hcs c (by simp)) hg1
    rw [if_neg (by omega)] at he
    obtain ⟨k2, lab2, f1, f2, f3, f4⟩ := ih (h := h1) (s := k) (ho.good hf ht.closed g) hl1 hk
      (fun c' hc' => hcs c' (by simp [hc'])) he hg
    exact ⟨k2, lab2, f1, f2, f3, by rw [f4, hlab, hsrc]; simp⟩

end Mozolm.Hub
