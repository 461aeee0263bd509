import Verif.Server.HandlerLemmas
import Verif.Hub.Few

/-!
# The calls on the hub that requests amount to
-/

namespace Mozolm.Server
open Mozolm.Hub
variable {A : Arith} {σ : Type} {env : Env A σ}

/-- A bound on the number of states a request can create. -/
def Request.symbols : Request → Nat
  | .getNextState ctx _ => ctx.length
  | .getLMScores ctx _ => ctx.length
  | .updateLMScores _ cs _ => 3 * cs.length

/-- The calls make the updates of the requests and no others. -/
def UpdatesOf (reqs : List Request) (calls : List Call) : Prop :=
  ∀ s cs n, Call.update s cs n ∈ calls → ∃ s', Request.updateLMScores s' cs n ∈ reqs

theorem walk_calls' {h h' : Hub A σ} {s r : Int} {cs : List Int} (he : walk env h s cs = .ok (r, h')) :
    ∃ calls, run env h calls = .ok h' ∧ (∀ s cs n, Call.update s cs n ∉ calls) ∧
      (calls.map Call.symbols).sum = cs.length := by
  induction cs generalizing h s with
  | nil =>
    simp only [walk, Except.ok.injEq, Prod.mk.injEq] at he
    exact ⟨[], by rw [← he.2]; rfl, by simp, rfl⟩
  | cons c cs ih =>
    obtain ⟨⟨r1, h1⟩, e1, e2⟩ := bind_ok.1 he
    obtain ⟨calls, e3, e4, e5⟩ := ih e2
    refine ⟨.next s c :: calls, by simp only [run, step, e1, ok_bind]; exact e3, fun s cs n h => ?_, ?_⟩
    · simp only [List.mem_cons, reduceCtorEq, false_or] at h
      exact e4 _ _ _ h
    · simp only [List.map_cons, List.sum_cons, e5, Call.symbols, List.length_cons]; omega

theorem serve_calls' {h h' : Hub A σ} {req : Request} (he : serve env h req = .ok h') :
    ∃ calls, run env h calls = .ok h' ∧ UpdatesOf [req] calls ∧
      (calls.map Call.symbols).sum ≤ req.symbols := by
  cases req with
  | getNextState ctx s =>
    obtain ⟨⟨a, h1⟩, e1, e2⟩ := bind_ok.1 he
    cases e2
    obtain ⟨⟨c, h2⟩, e3, e4⟩ := bind_ok.1 e1
    cases e4
    refine ⟨[.context ctx (toInt32 s)], by simp only [run, step, e3, ok_bind], fun _ _ _ h => by simp at h, ?_⟩
    simp [Call.symbols, Request.symbols]
  | getLMScores ctx s =>
    obtain ⟨⟨a, h1⟩, e1, e2⟩ := bind_ok.1 he
    cases e2
    obtain ⟨⟨c, h2⟩, e3, e4⟩ := bind_ok.1 e1
    obtain ⟨⟨x, h3⟩, e5, e6⟩ := bind_ok.1 e4
    refine ⟨[.context ctx (toInt32 s), .extract c], ?_, fun _ _ _ h => by simp at h, ?_⟩
    · simp only [run, step, e3, ok_bind, e5]
      cases x <;> (cases e6; rfl)
    · simp [Call.symbols, Request.symbols]
  | updateLMScores s cs n =>
    obtain ⟨⟨a, h1⟩, e1, e2⟩ := bind_ok.1 he
    cases e2
    obtain ⟨⟨w, h2⟩, e3, e4⟩ := bind_ok.1 e1
    obtain ⟨⟨u, h3⟩, e5, e6⟩ := bind_ok.1 e4
    obtain ⟨calls, e7, e10, e11⟩ := walk_calls' e3
    cases u with
    | false =>
      simp only [Bool.false_eq_true, if_false, Except.ok.injEq, Prod.mk.injEq] at e6
      refine ⟨calls ++ [.update (toInt32 s) cs n], ?_, fun s' cs' n' h => ?_, ?_⟩
      · rw [run_append, e7]
        simp only [ok_bind, run, step, e5, e6.2]
      · simp only [List.mem_append, List.mem_singleton, Call.update.injEq] at h
        rcases h with h | ⟨_, rfl, rfl⟩
        · exact absurd h (e10 _ _ _)
        · exact ⟨s, by simp⟩
      · simp only [List.map_append, List.sum_append, e11, List.map_cons, List.map_nil, List.sum_cons, List.sum_nil,
          Call.symbols, Request.symbols]
        omega
    | true =>
      simp only [if_true] at e6
      obtain ⟨⟨x, h4⟩, e8, e9⟩ := bind_ok.1 e6
      refine ⟨calls ++ [.update (toInt32 s) cs n, .extract w], ?_, fun s' cs' n' h => ?_, ?_⟩
      · rw [run_append, e7]
        simp only [ok_bind, run, step, e5, e8]
        cases x <;> (cases e9; rfl)
      · simp only [List.mem_append, List.mem_cons, Call.update.injEq, reduceCtorEq, List.not_mem_nil, or_false] at h
        rcases h with h | ⟨_, rfl, rfl⟩
        · exact absurd h (e10 _ _ _)
        · exact ⟨s, by simp⟩
      · simp only [List.map_append, List.sum_append, e11, List.map_cons, List.map_nil, List.sum_cons, List.sum_nil,
          Call.symbols, Request.symbols]
        omega

theorem serveAll_calls' {h h' : Hub A σ} {reqs : List Request} (he : serveAll env h reqs = .ok h') :
    ∃ calls, run env h calls = .ok h' ∧ UpdatesOf reqs calls ∧
      (calls.map Call.symbols).sum ≤ (reqs.map Request.symbols).sum := by
  induction reqs generalizing h with
  | nil => cases he; exact ⟨[], rfl, fun _ _ _ h => by simp at h, by simp⟩
  | cons r rs ih =>
    obtain ⟨h1, e1, e2⟩ := bind_ok.1 he
    obtain ⟨c1, f1, u1, s1⟩ := serve_calls' e1
    obtain ⟨c2, f2, u2, s2⟩ := ih e2
    refine ⟨c1 ++ c2, by rw [run_append, f1]; exact f2, fun s cs n h => ?_, ?_⟩
    · rcases List.mem_append.1 h with h | h
      · obtain ⟨s', h⟩ := u1 _ _ _ h
        simp only [List.mem_singleton] at h
        exact ⟨s', by simp [h]⟩
      · obtain ⟨s', h⟩ := u2 _ _ _ h
        exact ⟨s', by simp [h]⟩
    · simp only [List.map_append, List.sum_append, List.map_cons, List.sum_cons]
      omega

theorem Reach.hub' {models : List σ} {cfg : HubConfig A.C} {reqs : List Request} {h : Hub A σ}
    (hr : Reach env models cfg reqs h) : ∃ calls, Hub.Reach env models cfg calls h ∧ UpdatesOf reqs calls ∧
      (calls.map Call.symbols).sum ≤ (reqs.map Request.symbols).sum := by
  obtain ⟨h0, e0, e1⟩ := hr
  obtain ⟨calls, e2, e3, e4⟩ := serveAll_calls' e1
  exact ⟨calls, ⟨h0, e0, e2⟩, e3, e4⟩

end Mozolm.Server
