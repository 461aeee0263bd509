import Verif.Server.Handlers
import Verif.Hub.Closed

/-! # Server handlers: reduction to histories of hub calls -/

namespace Mozolm.Server
open Hub
variable {A : Arith} {σ : Type} {env : Env A σ}

/-- `h` is the hub of a server after handling the requests `reqs`, starting from the hub
`InitializeModels` makes of the components. -/
def Reach (env : Env A σ) (models : List σ) (cfg : HubConfig A.C) (reqs : List Request)
    (h : Hub A σ) : Prop :=
  ∃ h0, initializeModels env models cfg = .ok (some h0) ∧ serveAll env h0 reqs = .ok h

theorem run_append (as bs : List Call) (h : Hub A σ) :
    run env h (as ++ bs) = (run env h as >>= fun h => run env h bs) := by
  induction as generalizing h with
  | nil => rfl
  | cons a as ih =>
    simp only [List.cons_append, run]
    cases hn : step env h a with
    | error e => rfl
    | ok r => simp only [ok_bind]; exact ih _

theorem walk_calls {h h' : Hub A σ} {s r : Int} {cs : List Int}
    (he : walk env h s cs = .ok (r, h')) : ∃ calls, run env h calls = .ok h' := by
  induction cs generalizing h s with
  | nil =>
    simp only [walk, Except.ok.injEq, Prod.mk.injEq] at he
    exact ⟨[], by rw [← he.2]; rfl⟩
  | cons c cs ih =>
    obtain ⟨⟨r1, h1⟩, e1, e2⟩ := bind_ok.1 he
    obtain ⟨calls, e3⟩ := ih e2
    exact ⟨.next s c :: calls, by simp only [run, step, e1, ok_bind]; exact e3⟩

theorem serve_calls {h h' : Hub A σ} {req : Request} (he : serve env h req = .ok h') :
    ∃ calls, run env h calls = .ok h' := by
  cases req with
  | getNextState ctx s =>
    obtain ⟨⟨a, h1⟩, e1, e2⟩ := bind_ok.1 he
    cases e2
    obtain ⟨⟨c, h2⟩, e3, e4⟩ := bind_ok.1 e1
    cases e4
    exact ⟨[.context ctx (toInt32 s)], by simp only [run, step, e3, ok_bind]⟩
  | getLMScores ctx s =>
    obtain ⟨⟨a, h1⟩, e1, e2⟩ := bind_ok.1 he
    cases e2
    obtain ⟨⟨c, h2⟩, e3, e4⟩ := bind_ok.1 e1
    obtain ⟨⟨x, h3⟩, e5, e6⟩ := bind_ok.1 e4
    refine ⟨[.context ctx (toInt32 s), .extract c], ?_⟩
    simp only [run, step, e3, ok_bind, e5]
    cases x <;> (cases e6; rfl)
  | updateLMScores s cs n =>
    obtain ⟨⟨a, h1⟩, e1, e2⟩ := bind_ok.1 he
    cases e2
    obtain ⟨⟨w, h2⟩, e3, e4⟩ := bind_ok.1 e1
    obtain ⟨⟨u, h3⟩, e5, e6⟩ := bind_ok.1 e4
    obtain ⟨calls, e7⟩ := walk_calls e3
    cases u with
    | false =>
      simp only [Bool.false_eq_true, if_false, Except.ok.injEq, Prod.mk.injEq] at e6
      refine ⟨calls ++ [.update (toInt32 s) cs n], ?_⟩
      rw [run_append, e7]
      simp only [ok_bind, run, step, e5, e6.2]
    | true =>
      simp only [if_true] at e6
      obtain ⟨⟨x, h4⟩, e8, e9⟩ := bind_ok.1 e6
      refine ⟨calls ++ [.update (toInt32 s) cs n, .extract w], ?_⟩
      rw [run_append, e7]
      simp only [ok_bind, run, step, e5, e8]
      cases x <;> (cases e9; rfl)

theorem serveAll_calls {h h' : Hub A σ} {reqs : List Request} (he : serveAll env h reqs = .ok h') :
    ∃ calls, run env h calls = .ok h' := by
  induction reqs generalizing h with
  | nil => cases he; exact ⟨[], rfl⟩
  | cons r rs ih =>
    obtain ⟨h1, e1, e2⟩ := bind_ok.1 he
    obtain ⟨c1, f1⟩ := serve_calls e1
    obtain ⟨c2, f2⟩ := ih e2
    exact ⟨c1 ++ c2, by rw [run_append, f1]; exact f2⟩

/-- Everything proved about histories of hub calls applies to a server. -/
theorem Reach.hub {models : List σ} {cfg : HubConfig A.C} {reqs : List Request} {h : Hub A σ}
    (hr : Reach env models cfg reqs h) : ∃ calls, Hub.Reach env models cfg calls h := by
  obtain ⟨h0, e0, e1⟩ := hr
  obtain ⟨calls, e2⟩ := serveAll_calls e1
  exact ⟨calls, h0, e0, e2⟩

theorem Reach.good (hf : env.Fair) {models : List σ} {cfg : HubConfig A.C} {reqs : List Request}
    {h : Hub A σ} (hr : Reach env models cfg reqs h) :
    Good env (initial env models (cfgWeights cfg) (cfgHlen cfg) (cfgMax cfg)) h := by
  obtain ⟨calls, hc⟩ := hr.hub
  exact reach_good hf hc

/-! ## 32-bit conversion -/

theorem toInt32_of_range {x : Int} (h0 : -2147483648 ≤ x) (h1 : x < 2147483648) :
    toInt32 x = x := by
  unfold toInt32 Int.bmod
  have e : ((2 ^ 32 : Nat) : Int) = 4294967296 := rfl
  simp only [e]
  split <;> omega

theorem toInt32_range (x : Int) : -2147483648 ≤ toInt32 x ∧ toInt32 x < 2147483648 := by
  unfold toInt32 Int.bmod
  have e : ((2 ^ 32 : Nat) : Int) = 4294967296 := rfl
  simp only [e]
  split <;> omega

/-! ## the walk of `ManageUpdateLMScores` -/

theorem walk_ensure {h : Hub A σ} {s : Int} {cs : List Int} :
    ensureStates env h s cs = (walk env h s cs >>= fun r => .ok r.2) := by
  induction cs generalizing h s with
  | nil => rfl
  | cons c cs ih =>
    simp only [ensureStates, walk]
    cases hn : nextState env h s c with
    | error e => rfl
    | ok r => simp only [ok_bind]; exact ih

theorem walk_ok (hf : env.Fair) {h : Hub A σ} (hi : Inv h) (s : Int) (cs : List Int) :
    ∃ r h', walk env h s cs = .ok (r, h') ∧ Good env h h' ∧ Touches env.toLMOps h.models h'.models ∧
      ((∀ c ∈ cs, 0 ≤ c) → h.valid s = true → h'.valid r = true) := by
  induction cs generalizing h s with
  | nil => exact ⟨s, h, rfl, Good.refl hi, Touches.refl _ _, fun _ h => h⟩
  | cons c cs ih =>
    obtain ⟨r, h1, e, o⟩ := nextState_out hf hi s c
    have g1 := o.good hf hi
    obtain ⟨r2, h2, e2, g2, t2, v2⟩ := ih g1.inv r
    refine ⟨r2, h2, by simp only [walk, e, ok_bind]; exact e2, g1.trans g2, o.touches.trans t2,
      fun hcs _ => ?_⟩
    obtain ⟨k, rfl, _, hk, _⟩ := o.range hf hi (hcs c (by simp))
    refine v2 (fun c' h' => hcs c' (by simp [h'])) ?_
    simp only [Hub.valid, Bool.and_eq_true, decide_eq_true_eq]; omega

theorem walk_valid (hf : env.Fair) {h h' : Hub A σ} (hi : Inv h) {s r : Int} {cs : List Int}
    (hcs : ∀ c ∈ cs, 0 ≤ c) (he : walk env h s cs = .ok (r, h')) (hv : h'.valid s = true) :
    h'.valid r = true := by
  cases cs with
  | nil => cases he; exact hv
  | cons c cs =>
    obtain ⟨⟨r1, h1⟩, e1, e2⟩ := bind_ok.1 he
    obtain ⟨g1, o⟩ := nextState_good hf hi e1
    obtain ⟨k, hk0, _, hk, _⟩ := o.range hf hi (hcs c (by simp))
    obtain ⟨_, _, e2', _, _, v2⟩ := walk_ok hf g1.inv r1 cs
    rw [e2] at e2'; cases e2'
    refine v2 (fun c' h' => hcs c' (by simp [h'])) ?_
    simp only [Hub.valid, Bool.and_eq_true, decide_eq_true_eq]; omega

theorem walk_context (hf : env.Fair) {h : Hub A σ} (hi : Inv h) {s : Int} {cs : List Int}
    (hcs : ∀ c ∈ cs, 0 ≤ c) : walk env h s cs = contextLoop env h s cs := by
  induction cs generalizing h s with
  | nil => rfl
  | cons c cs ih =>
    simp only [walk, contextLoop]
    obtain ⟨r, h1, e, o⟩ := nextState_out hf hi s c
    obtain ⟨k, rfl, _, hk, _⟩ := o.range hf hi (hcs c (by simp))
    simp only [e, ok_bind]
    rw [if_neg (by omega)]
    exact ih (o.good hf hi).inv (fun c' h' => hcs c' (by simp [h']))

theorem valid_iff {h : Hub A σ} {s : Int} : h.valid s = true ↔ 0 ≤ s ∧ s < h.states.length := by
  simp [Hub.valid]

theorem Good.valid {h h' : Hub A σ} (g : Good env h h') {s : Int} (hv : h.valid s = true) :
    h'.valid s = true := by
  rw [valid_iff] at *
  have := g.const.len
  omega

/-- Refused after the table work only when the id was not a state. -/
theorem ghost_false {h h' : Hub A σ} (g : Good env h h') (hg : h'.selfRecycled = false) :
    h.selfRecycled = false := by
  cases hb : h.selfRecycled with
  | false => rfl
  | true => rw [g.const.ghost hb] at hg; cases hg

theorem initial_linked (models : List σ) (ws : List A.C) (hlen max : Nat) :
    Linked (initial env models ws hlen max) := by
  intro _ i st hst c k hck
  cases i with
  | zero =>
    simp only [initial, List.getElem?_cons_zero, Option.some.injEq] at hst
    subst hst; simp [HubState.mk'] at hck
  | succ i => simp [initial] at hst

end Mozolm.Server
