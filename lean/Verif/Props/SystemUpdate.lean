import Verif.Props.System
import Verif.Props.Server

/-!
# C72: updates behind the request handlers
-/

namespace Mozolm.System
open Mozolm.Hub Mozolm.Server
variable {A : Arith} {encode : Int → Str} {fuel : Nat}
  {orderN : List (Int × Nat) → List (Int × Nat)} {orderV : List (Str × A.C) → List (Str × A.C)}
  {models : List (Component A)} {cfg : HubConfig A.C} {calls : List Call} {h h' : Hub A (Component A)}

theorem updateLoop_all {σ : Type} {env : Env A σ} {okay : σ → Int → Prop}
    (hu : ∀ m s cs n, okay m s → (env.update m s cs n).1 = true) {st : HubState A.C} {cs : List Int} {n : Int} :
    ∀ (i : Nat) (ws : List A.C) (ms : List σ) (b : Bool) (ms' : List σ),
    (∀ (j : Nat) (m : σ), ms[j]? = some m → okay m (st.modelState (i + j))) →
    updateLoop env st cs n i ws ms = .ok (b, ms') → b = true
  | i, [], ms, b, ms', _, h => by
    simp only [updateLoop, Except.ok.injEq, Prod.mk.injEq] at h
    exact h.1.symm
  | i, w :: ws, [], b, ms', _, h => by simp [updateLoop] at h
  | i, w :: ws, m :: ms, b, ms', ho, h => by
    simp only [updateLoop] at h
    split at h
    · next m' e =>
      have := hu m (st.modelState i) cs n (ho 0 m rfl); rw [e] at this; cases this
    · obtain ⟨⟨b2, ms2⟩, e2, e3⟩ := bind_ok.1 h
      simp only [Except.ok.injEq, Prod.mk.injEq] at e3
      obtain ⟨rfl, _⟩ := e3
      refine updateLoop_all hu _ _ _ _ _ (fun j mj hj => ?_) e2
      have := ho (j + 1) mj (by simpa using hj)
      have e : i + 1 + j = i + (j + 1) := by omega
      rw [e]; exact this

/-- The components accept an update at an existing state. -/
theorem counts_accepted (hf : (env A encode fuel orderN orderV).Fair) (hb : ∀ m ∈ models, live encode fuel m)
    (hr : Hub.Reach (env A encode fuel orderN orderV) models cfg calls h) {x : Int} (hv : h.valid x = true)
    {cs : List Int} {n : Int} {u : Bool} (he : updateLMCounts (env A encode fuel orderN orderV) h x cs n = .ok (u, h'))
    (hg : h'.selfRecycled = false) : u = true := by
  have hc := closedOn A encode fuel
  have ho := Hub.reach_own hf hc hb hr
  have g := Hub.reach_good hf hr
  simp only [updateLMCounts] at he
  obtain ⟨ha, ea, e3⟩ := bind_ok.1 he
  obtain ⟨_, ea', ga⟩ := ensureStates_ok hf ho.inv x cs
  rw [ea] at ea'; cases ea'
  obtain ⟨_, ea'', ga'⟩ := ensureStates_ok (hf.guard (live := live encode fuel) (ok := ok)) ho.inv x cs
  rw [← ho.ensureStates hf hc, ea] at ea''; cases ea''
  have hoa := ho.good hf hc ga'
  obtain ⟨hb', eb, e3⟩ := bind_ok.1 e3
  have gb : Good (env A encode fuel orderN orderV) ha hb' ∧ Own (live encode fuel) ok hb' := by
    split at eb
    · refine ⟨historyLoop_good hf ga.inv eb, ?_⟩
      rw [hoa.historyLoop hf hc] at eb
      exact hoa.good hf hc (historyLoop_good hf.guard ga.inv eb)
    · cases eb; exact ⟨Good.refl ga.inv, hoa⟩
  rw [hv] at e3
  simp only [if_true] at e3
  have gall := g.trans (ga.trans gb.1)
  have hlk := gall.pres _ _ (linked_preserved hf) (initial_linked models _ _ _)
  split at e3
  · cases e3
  · next st hst =>
    obtain ⟨⟨b, ms⟩, ec, e3⟩ := bind_ok.1 e3
    have hbt : b = true := updateLoop_all (fun m s cs n (hm : live encode fuel m ∧ ok m s) =>
      update_accepted hm.1 hm.2 cs n) 0 _ _ _ _ (gb.2.at hst) ec
    subst hbt
    simp only [if_true] at e3
    have gm : Good (env A encode fuel orderN orderV) hb' { hb' with models := ms } :=
      Good.setModels gb.1.inv (updateLoop_touches _ _ _ _ _ ec)
    obtain ⟨_, _, ed', gd⟩ := verifyLoop_ok (env := env A encode fuel orderN orderV) gm.inv
      (lt_of_getElem?_eq_some (l := hb'.states) hst) cs
    rw [e3] at ed'; cases ed'
    have hgb : ({ hb' with models := ms } : Hub A (Component A)).selfRecycled = false := ghost_false gd hg
    obtain ⟨h5, e5⟩ := verifyLoop_true (env := env A encode fuel orderN orderV) gm.inv
      (gm.pres _ _ (linked_preserved hf) hlk) hgb
      (lt_of_getElem?_eq_some (l := hb'.states) hst) cs
    rw [e3] at e5; cases e5; rfl

theorem overflow_stays {m' : Component A} (h : TouchU (env A encode fuel orderN orderV).toLMOps .overflow m') :
    m' = .overflow := by
  induction h with
  | refl => rfl
  | next s c _ ih => rw [ih]; rfl
  | extract s _ ih => rw [ih]; rfl
  | score s c _ ih => rw [ih]; rfl
  | update s cs n _ ih => rw [ih]; rfl

/-- **C72** Behind the request handlers: an update request with non-negative symbols at an existing 32-bit state
id completes; and it is accepted, unless a state took its own place in the state buffer or a bigram count
overflowed. -/
theorem C72_update_service {models : List (Component A)} (hs : ∀ m ∈ models, Served encode m) (hm : 0 < models.length) :
    ∃ bound, ∀ fuel, bound ≤ fuel → ∀ orderN orderV, (env A encode fuel orderN orderV).Fair →
      ∀ cfg reqs h, (cfg.mixture = .interpolation → cfg.weights.length ≤ models.length) →
        Server.Reach (env A encode fuel orderN orderV) models cfg reqs h →
        ∀ x : Int, 0 ≤ x → x < 2 ^ 31 → x < h.states.length → ∀ cs : List Int, (∀ c ∈ cs, 0 ≤ c) → ∀ n,
          ∃ rep h', updateLMScores (env A encode fuel orderN orderV) h x cs n = .ok (rep, h') ∧
            (h'.selfRecycled = false → (∀ m ∈ h'.models, m ≠ .overflow) → ∃ r, rep = .ok r) := by
  obtain ⟨bound, hb⟩ := served_live hs
  obtain ⟨bound', hb'⟩ := C72_calls_complete hs hm
  refine ⟨max bound bound', fun fuel hfu orderN orderV hf cfg reqs h hcfg hr x hx0 hx1 hx2 cs hcs n => ?_⟩
  have hlive := hb fuel (by omega)
  obtain ⟨calls, hr⟩ := hr.hub
  have hc := closedOn A encode fuel
  have ho := Hub.reach_own hf hc hlive hr
  have h32 : toInt32 x = x := toInt32_of_range (by omega) (by omega)
  have hv : h.valid x = true := by rw [valid_iff]; omega
  obtain ⟨w, h1, e1, g1, t1, v1⟩ := walk_ok hf ho.inv x cs
  obtain ⟨calls1, f1⟩ := walk_calls e1
  have hr1 : Hub.Reach (env A encode fuel orderN orderV) models cfg (calls ++ calls1) h1 := by
    obtain ⟨h0, i0, i1⟩ := hr
    exact ⟨h0, i0, by rw [run_append, i1, ok_bind]; exact f1⟩
  have hv1 := Good.valid g1 hv
  have hw1 := walk_valid hf ho.inv hcs e1 hv1
  obtain ⟨h2, e2⟩ := hb' fuel (by omega) orderN orderV hf cfg _ h1 hcfg hr1 (.update x cs n) (fun s cs' n' he => by
    cases he; exact .inr ⟨hv1, hcs⟩)
  have e2' := e2
  simp only [Hub.step] at e2
  obtain ⟨⟨u, h2'⟩, e3, e4⟩ := bind_ok.1 e2
  have e42 : h2' = h2 := by cases e4; rfl
  subst e42
  have ho1 := Hub.reach_own hf hc hlive hr1
  have g3 := update_good hf ho1.inv e3
  have hr2 : Hub.Reach (env A encode fuel orderN orderV) models cfg (calls ++ calls1 ++ [.update x cs n]) h2' := by
    obtain ⟨h0, i0, i1⟩ := hr1
    exact ⟨h0, i0, by rw [run_append, i1, ok_bind]; simp only [run, e2', ok_bind]⟩
  have ho2 := Hub.reach_own hf hc hlive hr2
  obtain ⟨q1, q2⟩ := reach_weights hf hm hcfg hr2
  obtain ⟨r, h3, e5⟩ := own_fault (orderN := orderN) (orderV := orderV) ho2 q1 q2 w
  have hgo : ∀ hend : Hub A (Component A), hend.selfRecycled = false → Good (env A encode fuel orderN orderV) h2' hend → u = true :=
    fun hend hg g => counts_accepted hf hlive hr1 hv1 e3 (ghost_false g hg)
  simp only [updateLMScores, h32, e1, ok_bind, e3]
  cases u with
  | false =>
    exact ⟨.invalidArgument, h2', rfl, fun hg _ => absurd (hgo h2' hg (Good.refl g3.inv)) (by simp)⟩
  | true =>
    simp only [if_true, e5, ok_bind]
    have gx := extract_good ho2.inv e5
    cases r with
    | some r => exact ⟨.ok r, h3, rfl, fun _ _ => ⟨r, rfl⟩⟩
    | none =>
      refine ⟨.invalidArgument, h3, rfl, fun hg hov => ?_⟩
      refine absurd rfl (own_answers ho2 (fun m hm he => ?_) (Good.valid g3 hw1) e5)
      subst he
      obtain ⟨j, hj⟩ := List.mem_iff_getElem?.1 hm
      have hlen := gx.const.models.length_eq
      have hlt := lt_of_getElem?_eq_some hj
      obtain ⟨m', hj'⟩ := exists_getElem?_of_lt (l := h3.models) (i := j) (by omega)
      obtain ⟨m0, hj0, ht⟩ := Pointwise.get' gx.const.models hj'
      rw [hj] at hj0
      cases hj0
      exact hov m' (List.mem_of_getElem? hj') (overflow_stays ht)

end Mozolm.System
