import Verif.Hub.Denote

/-! # Hub: effect of calls on the component models -/

namespace Mozolm.Hub
variable {A : Arith} {σ : Type} {env : Env A σ}

/-- An observation of a component that its queries do not change (its counts, say). -/
structure LMOps.QueryInvariant (ops : LMOps A σ) {γ : Type} (obs : σ → γ) : Prop where
  next : ∀ m s c, obs (ops.next m s c).2 = obs m
  extract : ∀ m s, obs (ops.extract m s).2 = obs m
  score : ∀ m s c, obs (ops.symScore m s c).2 = obs m

theorem LMOps.QueryInvariant.touch {ops : LMOps A σ} {γ : Type} {obs : σ → γ}
    (hq : ops.QueryInvariant obs) {a b : σ} (h : Touch ops a b) : obs a = obs b := by
  induction h with
  | refl => rfl
  | next s c _ ih => rw [hq.next]; exact ih
  | extract s _ ih => rw [hq.extract]; exact ih
  | score s c _ ih => rw [hq.score]; exact ih

theorem LMOps.QueryInvariant.touches {ops : LMOps A σ} {γ : Type} {obs : σ → γ}
    (hq : ops.QueryInvariant obs) {a b : List σ} (h : Touches ops a b) : a.map obs = b.map obs :=
  h.map_eq (R := Touch ops) (f := obs) fun _ _ => hq.touch

theorem NextOut.touches {h h' : Hub A σ} {s c r : Int} (ho : NextOut env h s c r h') :
    Touches env.toLMOps h.models h'.models := by
  cases ho with
  | bad => exact Touches.refl _ _
  | cached => exact Touches.refl _ _
  | new hc st hst hk =>
    exact Touches.trans (nextAll_touches env.toLMOps st c 0 h.models)
      (bayesed_frame env (createdFrom env h (source h s) st c) (victim h)).models

theorem ensureStates_touches (hf : env.Fair) {h h' : Hub A σ} (hi : Inv h) {s : Int} {cs : List Int}
    (he : ensureStates env h s cs = .ok h') : Touches env.toLMOps h.models h'.models := by
  induction cs generalizing h s with
  | nil => simp only [ensureStates, Except.ok.injEq] at he; subst he; exact Touches.refl _ _
  | cons c cs ih =>
    simp only [ensureStates] at he
    obtain ⟨⟨r, h1⟩, e, he⟩ := bind_ok.1 he
    obtain ⟨g, o⟩ := nextState_good hf hi e
    exact o.touches.trans (ih g.inv he)

theorem historyLoop_touches (hf : env.Fair) {h h' : Hub A σ} (hi : Inv h) {s : Int} {cs : List Int}
    (he : historyLoop env h s cs = .ok h') : Touches env.toLMOps h.models h'.models := by
  induction cs generalizing h s with
  | nil => simp only [historyLoop, Except.ok.injEq] at he; subst he; exact Touches.refl _ _
  | cons c cs ih =>
    simp only [historyLoop] at he
    split at he
    · cases he
    · split at he
      · cases he
      · next st hst =>
        obtain ⟨h1, e1, he⟩ := bind_ok.1 he
        obtain ⟨⟨r, h2⟩, e2, he⟩ := bind_ok.1 he
        have hx : ∀ e ∈ env.orderN st.nexts, e.2 < h.states.length := by
          intro e hm
          exact (hi.st _ st hst).target_lt ((hf.permN _).mem_iff.1 hm)
        obtain ⟨h1', e1', g1, f1⟩ := historyEach_ok (env := env) hi _ hx
        rw [e1] at e1'; cases e1'
        obtain ⟨g2, o2⟩ := nextState_good hf g1.inv e2
        exact f1.models.trans (o2.touches.trans (ih g2.inv he))

theorem verifyLoop_touches {h h' : Hub A σ} {s : Nat} {cs : List Int} {r : Bool}
    (he : verifyLoop env h s cs = .ok (r, h')) : Touches env.toLMOps h.models h'.models := by
  induction cs generalizing h s with
  | nil =>
    simp only [verifyLoop, Except.ok.injEq, Prod.mk.injEq] at he
    rw [← he.2]; exact Touches.refl _ _
  | cons c cs ih =>
    simp only [verifyLoop] at he
    split at he
    · cases he
    · next st hst =>
      split at he
      · simp only [Except.ok.injEq, Prod.mk.injEq] at he
        rw [← he.2]; exact Touches.refl _ _
      · next k hk =>
        split at he
        · cases he
        · next kst hkst =>
          obtain ⟨⟨b, st'⟩, e1, he⟩ := bind_ok.1 he
          have ht := nextAll_touches env.toLMOps st c 0 h.models
          split at he
          · exact Touches.trans ht (ih he)
          · simp only [Except.ok.injEq, Prod.mk.injEq] at he
            rw [← he.2]; exact ht

/-- The parts of `UpdateLMCounts`: the table work before the counts are touched, the counts, the
verification. -/
theorem update_parts (hf : env.Fair) {h h' : Hub A σ} (hi : Inv h) {s : Int} {cs : List Int} {n : Int}
    {r : Bool} (he : updateLMCounts env h s cs n = .ok (r, h')) :
    ∃ h2, Good env h h2 ∧ Touches env.toLMOps h.models h2.models ∧
      ((h.valid s = false ∧ r = false ∧ h' = h2) ∨
       (h.valid s = true ∧ ∃ st b ms, h2.states[s.toNat]? = some st ∧
         updateLoop env st cs n 0 h2.weights h2.models = .ok (b, ms) ∧
         Touches env.toLMOps ms h'.models ∧ (r = true → b = true))) := by
  simp only [updateLMCounts] at he
  obtain ⟨h1, e1, he⟩ := bind_ok.1 he
  obtain ⟨h1', e1', g1⟩ := ensureStates_ok hf hi s cs
  rw [e1] at e1'; cases e1'
  obtain ⟨h2, e2, he⟩ := bind_ok.1 he
  have ht1 := ensureStates_touches hf hi e1
  have g2 : Good env h1 h2 ∧ Touches env.toLMOps h1.models h2.models := by
    split at e2
    · exact ⟨historyLoop_good hf g1.inv e2, historyLoop_touches hf g1.inv e2⟩
    · cases e2; exact ⟨Good.refl g1.inv, Touches.refl _ _⟩
  refine ⟨h2, g1.trans g2.1, ht1.trans g2.2, ?_⟩
  cases hv : h.valid s with
  | false =>
    rw [hv] at he
    simp only [Bool.false_eq_true, if_false, Except.ok.injEq, Prod.mk.injEq] at he
    exact .inl ⟨rfl, he.1.symm, he.2.symm⟩
  | true =>
    rw [hv] at he
    simp only [if_true] at he
    split at he
    · cases he
    · next st hst =>
      obtain ⟨⟨b, ms⟩, e3, he⟩ := bind_ok.1 he
      refine .inr ⟨rfl, st, b, ms, hst, e3, ?_⟩
      split at he
      · next hb =>
        exact ⟨verifyLoop_touches (h := { h2 with models := ms }) he, fun _ => hb⟩
      · simp only [Except.ok.injEq, Prod.mk.injEq] at he
        rw [← he.2]
        exact ⟨Touches.refl _ _, fun hr => by rw [← he.1] at hr; cases hr⟩

end Mozolm.Hub
