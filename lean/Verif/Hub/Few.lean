import Verif.Hub.Path

/-! # Hub: histories that never fill the table recycle nothing -/

namespace Mozolm.Hub
variable {A : Arith} {σ : Type} {env : Env A σ}

/-- A bound on the number of states a call can create. -/
def Call.symbols : Call → Nat
  | .next _ _ => 1
  | .context cs _ => cs.length
  | .extract _ => 0
  | .update _ cs _ => 2 * cs.length

/-- at most `n` states were added and none was recycled while being extended -/
def Few (h h' : Hub A σ) (n : Nat) : Prop :=
  h'.states.length ≤ h.states.length + n ∧ h'.selfRecycled = h.selfRecycled

theorem Few.refl (h : Hub A σ) : Few h h 0 := ⟨by omega, rfl⟩

theorem Few.trans {a b c : Hub A σ} {m n : Nat} (h1 : Few a b m) (h2 : Few b c n) :
    Few a c (m + n) := ⟨by have := h1.1; have := h2.1; omega, h2.2.trans h1.2⟩

theorem Few.mono {a b : Hub A σ} {m n : Nat} (h : Few a b m) (hmn : m ≤ n) : Few a b n :=
  ⟨by have := h.1; omega, h.2⟩

theorem Frame.few {h h' : Hub A σ} (f : Frame env h h') : Few h h' 0 :=
  ⟨by rw [f.len]; omega, f.ghost⟩

theorem nextState_few (hf : env.Fair) {h h' : Hub A σ} (hi : Inv h) {s c r : Int}
    (hr : h.states.length < h.max) (he : nextState env h s c = .ok (r, h')) : Few h h' 1 := by
  obtain ⟨_, o⟩ := nextState_good hf hi he
  obtain ⟨_, l, g, _⟩ := o.keep hf hi hr
  exact ⟨l, g⟩

theorem contextLoop_few (hf : env.Fair) {h h' : Hub A σ} (hi : Inv h) {s r : Int} {cs : List Int}
    (hr : h.states.length + cs.length ≤ h.max) (he : contextLoop env h s cs = .ok (r, h')) :
    Few h h' cs.length := by
  induction cs generalizing h s with
  | nil => cases he; exact Few.refl _
  | cons c cs ih =>
    simp only [List.length_cons] at hr ⊢
    obtain ⟨⟨r1, h1⟩, e1, e2⟩ := bind_ok.1 he
    have f1 := nextState_few hf hi (by omega) e1
    obtain ⟨g1, _⟩ := nextState_good hf hi e1
    have f2 := ih g1.inv (by have := f1.1; have := g1.const.max; omega) e2
    exact (f1.trans f2).mono (by omega)

theorem ensureStates_few (hf : env.Fair) {h h' : Hub A σ} (hi : Inv h) {s : Int} {cs : List Int}
    (hr : h.states.length + cs.length ≤ h.max) (he : ensureStates env h s cs = .ok h') :
    Few h h' cs.length := by
  induction cs generalizing h s with
  | nil => cases he; exact Few.refl _
  | cons c cs ih =>
    simp only [List.length_cons] at hr ⊢
    obtain ⟨⟨r1, h1⟩, e1, e2⟩ := bind_ok.1 he
    have f1 := nextState_few hf hi (by omega) e1
    obtain ⟨g1, _⟩ := nextState_good hf hi e1
    have f2 := ih g1.inv (by have := f1.1; have := g1.const.max; omega) e2
    exact (f1.trans f2).mono (by omega)

theorem historyLoop_few (hf : env.Fair) {h h' : Hub A σ} (hi : Inv h) {s : Int} {cs : List Int}
    (hr : h.states.length + cs.length ≤ h.max) (he : historyLoop env h s cs = .ok h') :
    Few h h' cs.length := by
  induction cs generalizing h s with
  | nil => cases he; exact Few.refl _
  | cons c cs ih =>
    simp only [List.length_cons] at hr ⊢
    simp only [historyLoop] at he
    split at he
    · cases he
    · split at he
      · cases he
      · next st hst =>
        obtain ⟨h1, e1, he⟩ := bind_ok.1 he
        obtain ⟨⟨r, h2⟩, e2, he⟩ := bind_ok.1 he
        have hx : ∀ e ∈ env.orderN st.nexts, e.2 < h.states.length := by
          intro e hm
          exact (hi.st _ st hst).target_lt ((hf.permN _).mem_iff.1 hm)
        obtain ⟨h1', e1', g1, f1⟩ := historyEach_ok (env := env) hi _ hx
        rw [e1] at e1'; cases e1'
        have hm := g1.const.max
        have hl := f1.len
        have f2 := nextState_few hf g1.inv (by omega) e2
        obtain ⟨g2, _⟩ := nextState_good hf g1.inv e2
        have f3 := ih g2.inv (by have := f2.1; have := g2.const.max; omega) he
        exact ((f1.few.trans f2).trans f3).mono (by omega)

theorem verifyLoop_few {h h' : Hub A σ} {s : Nat} {cs : List Int} {r : Bool}
    (he : verifyLoop env h s cs = .ok (r, h')) : Few h h' 0 := by
  induction cs generalizing h s with
  | nil => cases he; exact Few.refl _
  | cons c cs ih =>
    simp only [verifyLoop] at he
    split at he
    · cases he
    · next st hst =>
      split at he
      · cases he; exact Few.refl _
      · next k hk =>
        split at he
        · cases he
        · next kst hkst =>
          obtain ⟨⟨b, st'⟩, e1, he⟩ := bind_ok.1 he
          split at he
          · have := ih he
            exact ⟨by have := this.1; simpa using this, this.2⟩
          · simp only [Except.ok.injEq, Prod.mk.injEq] at he
            rw [← he.2]
            exact ⟨by simp, rfl⟩

theorem updateLMCounts_few (hf : env.Fair) {h h' : Hub A σ} (hi : Inv h) {s : Int} {cs : List Int}
    {n : Int} {r : Bool} (hr : h.states.length + 2 * cs.length ≤ h.max)
    (he : updateLMCounts env h s cs n = .ok (r, h')) : Few h h' (2 * cs.length) := by
  simp only [updateLMCounts] at he
  obtain ⟨h1, e1, he⟩ := bind_ok.1 he
  obtain ⟨h2, e2, he⟩ := bind_ok.1 he
  have f1 := ensureStates_few hf hi (by omega) e1
  obtain ⟨_, e1', g1⟩ := ensureStates_ok hf hi s cs
  rw [e1] at e1'; cases e1'
  have f2 : Few h1 h2 cs.length := by
    split at e2
    · exact historyLoop_few hf g1.inv (by have := f1.1; have := g1.const.max; omega) e2
    · cases e2; exact (Few.refl _).mono (by omega)
  have f12 := (f1.trans f2).mono (n := 2 * cs.length) (by omega)
  split at he
  · split at he
    · cases he
    · obtain ⟨⟨b, ms⟩, e3, he⟩ := bind_ok.1 he
      split at he
      · have f3 := verifyLoop_few he
        exact ⟨by have := f12.1; have := f3.1; simp only at *; omega, f3.2.trans f12.2⟩
      · cases he; exact f12
  · cases he; exact f12

theorem step_few (hf : env.Fair) {h h' : Hub A σ} (hi : Inv h) {c : Call}
    (hr : h.states.length + c.symbols ≤ h.max) (he : step env h c = .ok h') :
    Few h h' c.symbols := by
  cases c with
  | next s c =>
    obtain ⟨⟨r, h1⟩, e1, e2⟩ := bind_ok.1 he
    cases e2
    exact nextState_few hf hi (by simp only [Call.symbols] at hr; omega) e1
  | context cs s =>
    obtain ⟨⟨r, h1⟩, e1, e2⟩ := bind_ok.1 he
    cases e2
    exact contextLoop_few hf hi hr e1
  | extract s =>
    obtain ⟨⟨r, h1⟩, e1, e2⟩ := bind_ok.1 he
    cases e2
    obtain ⟨ms, _, e⟩ := extract_states e1
    rw [e]; exact ⟨by simp, rfl⟩
  | update s cs n =>
    obtain ⟨⟨r, h1⟩, e1, e2⟩ := bind_ok.1 he
    cases e2
    exact updateLMCounts_few hf hi hr e1

theorem run_few (hf : env.Fair) {h h' : Hub A σ} (hi : Inv h) {calls : List Call}
    (hr : h.states.length + (calls.map Call.symbols).sum ≤ h.max) (he : run env h calls = .ok h') :
    Few h h' (calls.map Call.symbols).sum := by
  induction calls generalizing h with
  | nil => cases he; exact Few.refl _
  | cons c cs ih =>
    simp only [List.map_cons, List.sum_cons] at hr ⊢
    obtain ⟨h1, e1, e2⟩ := bind_ok.1 he
    have f1 := step_few hf hi (by omega) e1
    have g1 := step_good hf hi e1
    have f2 := ih g1.inv (by have := f1.1; have := g1.const.max; omega) e2
    exact f1.trans f2

end Mozolm.Hub
