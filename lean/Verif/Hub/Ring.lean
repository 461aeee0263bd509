import Verif.Hub.Path

/-! # Hub: which slots survive the next creations

Slots are overwritten in a fixed order: first the table grows to its maximum, then the slots
`1, 2, …, max - 1` are reused again and again. -/

namespace Mozolm.Hub
variable {A : Arith} {σ : Type} {env : Env A σ}

/-- the slots that are not overwritten within the next `n` creations are kept (they may have gained
transitions and history) -/
def KeepFor (n : Nat) (h h' : Hub A σ) : Prop :=
  ∀ (i : Nat) (st : HubState A.C), h.states[i]? = some st → n < h.turnsLeft i →
    ∃ st' : HubState A.C, h'.states[i]? = some st' ∧ st'.modelStates = st.modelStates ∧
      ∀ c k, HubState.lookup st.nexts c = some k → HubState.lookup st'.nexts c = some k

theorem KeepFor.refl (n : Nat) (h : Hub A σ) : KeepFor n h h :=
  fun _ st e _ => ⟨st, e, rfl, fun _ _ x => x⟩

/-- What one call of `NextState` keeps, and how the turns change. -/
theorem NextOut.keepFor (hf : env.Fair) {h h' : Hub A σ} (hi : Inv h) {s c r : Int}
    (ho : NextOut env h s c r h') :
    KeepFor 1 h h' ∧
    (∀ i, i < h.states.length → 1 < h.turnsLeft i → h.turnsLeft i ≤ h'.turnsLeft i + 1) ∧
    (∀ k : Nat, r = k → 0 ≤ c → h.turnsLeft (source h s) ≤ h'.turnsLeft k + 1) := by
  cases ho with
  | bad hc =>
    exact ⟨KeepFor.refl 1 _, fun i _ _ => by omega, fun k _ h0 => by omega⟩
  | cached hc st k hst hk =>
    refine ⟨KeepFor.refl 1 _, fun i _ _ => by omega, fun k' e _ => ?_⟩
    have : k' = k := by omega
    subst this
    obtain ⟨_, hk1, ho, kst, hkst, _⟩ := (hi.st _ st hst).edges c _ (lookup_mem hk)
    have h1 := lt_of_getElem?_eq_some hkst
    have h2 := lt_of_getElem?_eq_some hst
    have h3 := hi.le
    have h4 := hi.last_lt
    unfold Older at ho
    unfold Hub.turnsLeft
    split <;> split <;> omega
  | new hc st hst hk =>
    have ht := nextAll_touches env.toLMOps st c 0 h.models
    have hi' := hi.setModels ht.length_eq.symm
    have hfr := bayesed_frame env (createdFrom env h (source h s) st c) (victim h)
    have hmax := hi.max_ge
    have hle := hi.le
    have hll := hi.last_lt
    have hgr := hi.grow
    have hlast : (bayesed env (createdFrom env h (source h s) st c) (victim h)).last = victim h := by
      rw [hfr.last]; rfl
    have hmx : (bayesed env (createdFrom env h (source h s) st c) (victim h)).max = h.max := by
      rw [hfr.max]; rfl
    have hslt := lt_of_getElem?_eq_some hst
    refine ⟨?_, ?_, ?_⟩
    · intro i ist hist hturn
      have hlt := lt_of_getElem?_eq_some hist
      have hne : i ≠ victim { h with models := (nextAll env.toLMOps st c 0 h.models).2 } := by
        show i ≠ victim h
        unfold victim Hub.turnsLeft at *
        split at hturn <;> split <;> first | omega | (split <;> omega)
      obtain ⟨st', e1, e2, e3, _, _, _, e7, e8⟩ := created_other (env := env)
        (ms := (nextAll env.toLMOps st c 0 h.models).1) hf hi' hst hk hne hist
      have hkept : kept env { h with models := (nextAll env.toLMOps st c 0 h.models).2 } i ist
          = ist := by
        apply kept_ne_start
        rintro ⟨rfl, hw1, hw2⟩
        have hw2' : h.max ≤ h.last + 1 := hw2
        unfold Hub.turnsLeft at hturn
        split at hturn <;> omega
      rw [hkept] at e3 e8
      obtain ⟨st'', g1, g2, _, _, g5⟩ := hfr.symm_st e1
      refine ⟨st'', g1, g5.trans e3, fun c' k' x => ?_⟩
      rw [g2, e8]
      exact lookup_append_of_some x
    · intro i hlt hturn
      unfold Hub.turnsLeft at *
      rw [hlast, hmx]
      unfold victim at *
      split at hturn <;> (split <;> (repeat' split) <;> omega)
    · intro k e _
      have : k = victim h := by omega
      subst this
      unfold Hub.turnsLeft
      rw [hlast, hmx]
      unfold victim
      split <;> (repeat' split) <;> omega

/-- Walking from a slot that has more turns left than there are symbols. -/
theorem contextLoop_turns (hf : env.Fair) {h : Hub A σ} (hi : Inv h) {s : Nat}
    (hs : s < h.states.length) {cs : List Int} (hcs : ∀ c ∈ cs, 0 ≤ c)
    (hr : cs.length < h.turnsLeft s) :
    ∃ (t : Nat) (h' : Hub A σ), contextLoop env h s cs = .ok ((t : Int), h') ∧ Good env h h' ∧
      KeepFor cs.length h h' ∧ IsPath h' s cs t ∧ Touches env.toLMOps h.models h'.models := by
  induction cs generalizing h s with
  | nil =>
    exact ⟨s, h, rfl, Good.refl hi, KeepFor.refl _ _, rfl, Touches.refl _ _⟩
  | cons c cs ih =>
    have hc := hcs c (by simp)
    simp only [List.length_cons] at hr ⊢
    obtain ⟨r, h1, e, o⟩ := nextState_out hf hi s c
    obtain ⟨k1, l1, m1⟩ := o.keepFor hf hi
    have g1 := o.good hf hi
    obtain ⟨k, hkr, _, hk, _, sst, s1, s2⟩ := o.range hf hi hc
    have hsrc : source h (s : Int) = s := by
      have := source_valid (h := h) (s := (s : Int)) (by omega) (by omega); omega
    rw [hsrc] at s1 m1
    have hm := m1 k hkr hc
    subst hkr
    obtain ⟨t, h2, e2, g2, kk2, p2, to2⟩ := ih g1.inv hk (fun c' h' => hcs c' (by simp [h']))
      (by omega)
    refine ⟨t, h2, ?_, g1.trans g2, ?_, ?_, o.touches.trans to2⟩
    · simp only [contextLoop, e, ok_bind]
      rw [if_neg (by omega)]
      exact e2
    · intro i st hst hi'
      obtain ⟨st1, a1, a2, a3⟩ := k1 i st hst (by omega)
      have := l1 i (lt_of_getElem?_eq_some hst) (by omega)
      obtain ⟨st2, b1, b2, b3⟩ := kk2 i st1 a1 (by omega)
      exact ⟨st2, b1, b2.trans a2, fun c k x => b3 c k (a3 c k x)⟩
    · have := l1 s hs (by omega)
      obtain ⟨st', f1, _, f5⟩ := kk2 s sst s1 (by omega)
      exact ⟨st', k, f1, f5 _ _ s2, p2⟩

end Mozolm.Hub
