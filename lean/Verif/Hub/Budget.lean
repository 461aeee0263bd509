import Verif.Hub.Effects
import Verif.Hub.Spec
import Verif.Hub.Guard

/-!
# Hub: what a history can make a component count

Each call of `UpdateLMCounts` updates each component at most once; no other call updates any.
-/

namespace Mozolm.Hub
variable {A : Arith} {σ : Type} {env : Env A σ}

/-- What the calls of a history add up to. -/
def spent (price : List Int → Int → Int) : List Call → Int
  | [] => 0
  | .update _ cs n :: calls => price cs n + spent price calls
  | _ :: calls => spent price calls

/-- `P k m`: component `m` has used up at most `k`. Queries use up nothing, an update its price. -/
structure LMOps.Budget (ops : LMOps A σ) (P : Int → σ → Prop) (price : List Int → Int → Int) (limit : Int) : Prop where
  mono : ∀ k k' m, k ≤ k' → P k m → P k' m
  nonneg : ∀ cs n, 0 ≤ price cs n
  next : ∀ k m s c, P k m → P k (ops.next m s c).2
  extract : ∀ k m s, P k m → P k (ops.extract m s).2
  score : ∀ k m s c, P k m → P k (ops.symScore m s c).2
  update : ∀ k m s cs n, P k m → k + price cs n ≤ limit → P (k + price cs n) (ops.update m s cs n).2

variable {P : Int → σ → Prop} {price : List Int → Int → Int} {limit : Int}

theorem LMOps.Budget.touch {ops : LMOps A σ} (hb : ops.Budget P price limit) {k : Int} {m m' : σ} (h : Touch ops m m')
    (hp : P k m) : P k m' := by
  induction h with
  | refl => exact hp
  | next s c _ ih => exact hb.next _ _ _ _ ih
  | extract s _ ih => exact hb.extract _ _ _ ih
  | score s c _ ih => exact hb.score _ _ _ _ ih

theorem LMOps.Budget.touches {ops : LMOps A σ} (hb : ops.Budget P price limit) {k : Int} {ms ms' : List σ}
    (h : Touches ops ms ms') (hp : ∀ m ∈ ms, P k m) : ∀ m ∈ ms', P k m := by
  intro m hm
  obtain ⟨j, hj, rfl⟩ := List.mem_iff_getElem.1 hm
  obtain ⟨m0, e1, e2⟩ := Pointwise.get' h (List.getElem?_eq_getElem hj)
  exact hb.touch e2 (hp m0 (List.mem_of_getElem? e1))

theorem LMOps.Budget.updateLoop (hb : env.toLMOps.Budget P price limit) {k : Int} {st : HubState A.C} {cs : List Int}
    {n : Int} (hk : k + price cs n ≤ limit) :
    ∀ (i : Nat) (ws : List A.C) (ms : List σ) (b : Bool) (ms' : List σ),
    Hub.updateLoop env st cs n i ws ms = .ok (b, ms') → (∀ m ∈ ms, P k m) → ∀ m ∈ ms', P (k + price cs n) m
  | i, [], ms, b, ms', he, hp => by
    simp only [Hub.updateLoop, Except.ok.injEq, Prod.mk.injEq] at he
    have := hb.nonneg cs n
    exact fun m hm => hb.mono _ _ m (by omega) (hp m (by rw [he.2]; exact hm))
  | i, w :: ws, [], b, ms', he, hp => by simp [Hub.updateLoop] at he
  | i, w :: ws, m :: ms, b, ms', he, hp => by
    have h0 := hb.update k m (st.modelState i) cs n (hp m (by simp)) hk
    have hn := hb.nonneg cs n
    simp only [Hub.updateLoop] at he
    split at he
    · next m' e =>
      simp only [Except.ok.injEq, Prod.mk.injEq] at he
      rw [e] at h0
      rw [← he.2]
      intro x hx
      rcases List.mem_cons.1 hx with rfl | hx
      · exact h0
      · exact hb.mono _ _ x (by omega) (hp x (by simp [hx]))
    · next m' e =>
      rw [e] at h0
      obtain ⟨⟨b2, ms2⟩, e2, e3⟩ := bind_ok.1 he
      simp only [Except.ok.injEq, Prod.mk.injEq] at e3
      rw [← e3.2]
      intro x hx
      rcases List.mem_cons.1 hx with rfl | hx
      · exact h0
      · exact updateLoop hb hk (i + 1) ws ms b2 ms2 e2 (fun y hy => hp y (by simp [hy])) x hx

theorem contextLoop_touches (hf : env.Fair) {h h' : Hub A σ} (hi : Inv h) {s r : Int} {cs : List Int}
    (he : contextLoop env h s cs = .ok (r, h')) : Touches env.toLMOps h.models h'.models := by
  induction cs generalizing h s with
  | nil => cases he; exact Touches.refl _ _
  | cons c cs ih =>
    simp only [contextLoop] at he
    obtain ⟨⟨r1, h1⟩, e1, e2⟩ := bind_ok.1 he
    obtain ⟨g1, o⟩ := nextState_good hf hi e1
    exact o.touches.trans (ih g1.inv e2)

theorem LMOps.Budget.step (hb : env.toLMOps.Budget P price limit) (hf : env.Fair) {h h' : Hub A σ} (hi : Inv h)
    {k : Int} (hp : ∀ m ∈ h.models, P k m) {c : Call} (hk : k + spent price [c] ≤ limit)
    (he : Hub.step env h c = .ok h') : ∀ m ∈ h'.models, P (k + spent price [c]) m := by
  cases c with
  | next s c =>
    obtain ⟨⟨r, h1⟩, e1, e2⟩ := bind_ok.1 he
    cases e2
    simpa [spent] using hb.touches (nextState_good hf hi e1).2.touches hp
  | context cs s =>
    obtain ⟨⟨r, h1⟩, e1, e2⟩ := bind_ok.1 he
    cases e2
    simpa [spent] using hb.touches (contextLoop_touches hf hi e1) hp
  | extract s =>
    obtain ⟨⟨r, h1⟩, e1, e2⟩ := bind_ok.1 he
    cases e2
    obtain ⟨ms, t, rfl⟩ := extract_states e1
    simpa [spent] using hb.touches t hp
  | update s cs n =>
    obtain ⟨⟨r, h1⟩, e1, e2⟩ := bind_ok.1 he
    cases e2
    obtain ⟨h2, _, t, ⟨_, _, rfl⟩ | ⟨_, st, b, ms, _, e3, t2, _⟩⟩ := update_parts hf hi e1
    · have := hb.nonneg cs n
      intro m hm
      exact hb.mono _ _ m (by simp only [spent]; omega) (hb.touches t hp m hm)
    · simp only [spent, Int.add_zero] at hk ⊢
      exact hb.touches t2 (hb.updateLoop hk _ _ _ _ _ e3 (hb.touches t hp))

theorem spent_cons (price : List Int → Int → Int) (c : Call) (calls : List Call) :
    spent price (c :: calls) = spent price [c] + spent price calls := by
  cases c <;> simp [spent]

theorem spent_nonneg (hb : ∀ cs n, 0 ≤ price cs n) (calls : List Call) : 0 ≤ spent price calls := by
  induction calls with
  | nil => exact Int.le_refl _
  | cons c calls ih =>
    cases c with
    | update s cs n => have := hb cs n; simp only [spent]; omega
    | _ => exact ih

/-- A history within the budget keeps all components within it. -/
theorem LMOps.Budget.run (hb : env.toLMOps.Budget P price limit) (hf : env.Fair) {h h' : Hub A σ} (hi : Inv h)
    {k : Int} (hp : ∀ m ∈ h.models, P k m) {calls : List Call} (hk : k + spent price calls ≤ limit)
    (he : Hub.run env h calls = .ok h') : ∀ m ∈ h'.models, P (k + spent price calls) m := by
  induction calls generalizing h k with
  | nil => cases he; simpa [spent] using hp
  | cons c calls ih =>
    obtain ⟨h1, e1, e2⟩ := bind_ok.1 he
    rw [spent_cons] at hk ⊢
    have := spent_nonneg hb.nonneg calls
    have h2 := hb.step hf hi hp (by omega) e1
    rw [← Int.add_assoc]
    exact ih (step_good hf hi e1).inv h2 (by omega) e2

end Mozolm.Hub
