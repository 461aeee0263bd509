import Verif.Server.Directory
import Verif.Hub.Points

/-! # Hub: what requests do to the states of the texts, while there is room -/

namespace Mozolm.Hub
variable {A : Arith} {σ : Type} {env : Env A σ}

/-- `NextState` with room keeps the states there are; the state of a new text is what the components say. -/
theorem NextOut.page (hf : env.Fair) {h h' : Hub A σ} (hi : Inv h) {s c r : Int} (ho : NextOut env h s c r h') (hc : 0 ≤ c)
    {ts : List (List Int)} (hx : Indexed h ts) (hroom : (visit ts (sourceText ts s) c).length ≤ h.max) :
    Keep h h' ∧ h'.selfRecycled = h.selfRecycled ∧ (sourceText ts s ++ [c] ∉ ts → ∃ st vst : HubState A.C,
      h.states[Hub.source h s]? = some st ∧ h'.states[ts.length]? = some vst ∧
      vst.modelStates = (nextAll env.toLMOps st c 0 h.models).1) := by
  have hsrc := hx.source s
  have ho' := ho
  cases ho with
  | bad hc' => omega
  | cached _ st k hst hk =>
    have hk' := (hx.edge _ _ _ hst hsrc c k).1 hk
    exact ⟨Keep.refl _, rfl, fun hn => absurd (List.mem_of_getElem? hk') hn⟩
  | new _ st hst hk =>
    have hmem : sourceText ts s ++ [c] ∉ ts := by
      intro hm
      obtain ⟨k, hk'⟩ := List.mem_iff_getElem?.1 hm
      rw [(hx.edge _ _ _ hst hsrc c k).2 hk'] at hk
      cases hk
    have hv : visit ts (sourceText ts s) c = ts ++ [sourceText ts s ++ [c]] := if_neg hmem
    rw [hv, List.length_append, List.length_singleton] at hroom
    have hr : h.states.length < h.max := by rw [hx.len]; omega
    obtain ⟨k1, _, k3, _⟩ := ho'.keep hf hi hr
    refine ⟨k1, k3, fun _ => ?_⟩
    have ht := nextAll_touches env.toLMOps st c 0 h.models
    have hi' := hi.setModels ht.length_eq.symm
    obtain ⟨vst, e1, _, e3, _⟩ := created_new (env := env)
      (ms := (nextAll env.toLMOps st c 0 h.models).1) hf hi' hst hk
    have hfr := bayesed_frame env (createdFrom env h (Hub.source h s) st c) (victim h)
    have e1' : (createdFrom env h (Hub.source h s) st c).states[victim h]? = some vst := e1
    obtain ⟨vst', f1, _, _, _, f5⟩ := hfr.symm_st e1'
    exact ⟨st, vst', hst, by rw [← hx.len, ← victim_room hr]; exact f1, f5.trans e3⟩

/-- The verification along a text changes only the states of the texts on the way. -/
theorem verifyLoop_off {ts : List (List Int)} (cs : List Int) : ∀ {h h' : Hub A σ} {s : Nat} {t : List Int} {b : Bool}, Indexed h ts →
    Inv h → Linked h → h.selfRecycled = false → ts[s]? = some t → t ++ cs ∈ ts → env.Fair → verifyLoop env h s cs = .ok (b, h') →
    ∀ (i : Nat) (u : List Int), ts[i]? = some u → (∀ pre, pre ≠ [] → pre <+: cs → u ≠ t ++ pre) → h'.states[i]? = h.states[i]? := by
  induction cs with
  | nil =>
    intro h h' s t b hx hi hl hg hs hm hf he i u hu hoff
    cases he; rfl
  | cons c cs ih =>
    intro h h' s t b hx hi hl hg hs hm hf he i u hu hoff
    have hm' : (t ++ [c]) ++ cs ∈ ts := by simpa using hm
    obtain ⟨k, hk⟩ := List.mem_iff_getElem?.1 (hx.stem cs hm')
    obtain ⟨st, hst⟩ := exists_getElem?_of_lt (l := h.states) (i := s) (by rw [hx.len]; exact lt_of_getElem?_eq_some hs)
    obtain ⟨kst, hkst, _, _, hver, hgood⟩ := verifyLoop_cons (env := env) hi hl hg hst ((hx.edge s st t hst hs c k).2 hk) cs
    rw [hver] at he
    have hx' : Indexed (verified env h st c k kst) ts := by
      refine hx.same (by simp [verified]) fun q st' hq => ?_
      simp only [verified, List.getElem?_set] at hq
      split at hq
      · next e =>
        subst e
        rw [if_pos (lt_of_getElem?_eq_some hkst)] at hq
        cases hq
        exact ⟨kst, hkst, rfl⟩
      · exact ⟨st', hq, rfl⟩
    have hik : k ≠ i := by
      rintro rfl
      rw [hk] at hu
      exact hoff [c] (by simp) (by simp) (Option.some.inj hu).symm
    rw [ih hx' hgood.inv (hgood.pres _ _ (linked_preserved hf) hl) hg hk hm' hf he i u hu fun pre hne hpre e =>
      hoff (c :: pre) (by simp) (by simpa using hpre) (by rw [e]; simp)]
    simp only [verified, List.getElem?_set]
    rw [if_neg hik]

/-- Counting along a text changes the component states only of the texts on the way. -/
theorem update_off (hf : env.Fair) {ts : List (List Int)} {h h' : Hub A σ} {s : Nat} {t : List Int} {b : Bool} {cs : List Int} {n : Int} (hx : Indexed h ts)
    (hi : Inv h) (hl : Linked h) (hg : h.selfRecycled = false) (hs : ts[s]? = some t) (hm : t ++ cs ∈ ts)
    (he : updateLMCounts env h s cs n = .ok (b, h')) (i : Nat) (u : List Int) (hu : ts[i]? = some u)
    (hoff : ∀ pre, pre ≠ [] → pre <+: cs → u ≠ t ++ pre) (st : HubState A.C) (hst : h.states[i]? = some st) :
    ∃ st' : HubState A.C, h'.states[i]? = some st' ∧ st'.modelStates = st.modelStates := by
  obtain ⟨k, hk⟩ := List.mem_iff_getElem?.1 hm
  have hp := hx.path cs hs hk
  have hv : h.valid (s : Int) = true := by
    have := lt_of_getElem?_eq_some hs
    have := hx.len
    simp only [Hub.valid, Bool.and_eq_true, decide_eq_true_eq]; omega
  simp only [updateLMCounts, ensureStates_path hp, ok_bind, hv, if_true, Int.toNat_natCast] at he
  obtain ⟨h2, e2, he⟩ := bind_ok.1 he
  have x2 : Indexed h2 ts ∧ Inv h2 ∧ Linked h2 ∧ h2.selfRecycled = false ∧
      ∃ st' : HubState A.C, h2.states[i]? = some st' ∧ st'.modelStates = st.modelStates := by
    split at e2
    · obtain ⟨h3, e3, f3, g3⟩ := historyLoop_path hf hi hp
      rw [e2] at e3; cases e3
      obtain ⟨st', f4, _, _, _, f5⟩ := f3.symm_st hst
      exact ⟨f3.indexed hx, g3.inv, g3.pres _ _ (linked_preserved hf) hl, f3.ghost.trans hg, st', f4, f5⟩
    · cases e2; exact ⟨hx, hi, hl, hg, st, hst, rfl⟩
  obtain ⟨x2, i2, l2, g2, st2, s1, s2⟩ := x2
  split at he
  · cases he
  · obtain ⟨r, e3, e4⟩ := bind_ok.1 he
    have x3 : Indexed { h2 with models := r.2 } ts := x2.same rfl fun i st' hi => ⟨st', hi, rfl⟩
    have g3 : Good env h2 { h2 with models := r.2 } := Good.setModels i2 (updateLoop_touches _ _ _ _ _ e3)
    split at e4
    · have := verifyLoop_off cs x3 g3.inv (g3.pres _ _ (linked_preserved hf) l2) g2 hs hm hf e4 i u hu hoff
      exact ⟨st2, this.trans s1, s2⟩
    · cases e4; exact ⟨st2, s1, s2⟩

end Mozolm.Hub
