import Verif.Server.ServiceEnd
import Verif.Server.HandlerLemmas

/-!
# C85: the service as a whole

`WReach` ranges over any number of clients, every order in which their requests are sent, delivered, handled and
answered, every interleaving of the server's threads, calls of `Shutdown` at any time, and every failure of calls.
-/

namespace Mozolm.Server
open Mozolm.Hub

variable {A : Arith} {σ : Type} {env : Env A σ} {h0 : Hub A σ}

theorem mem_split {α : Type} {p q : List α} {l : List α} {x : α} (h : l = p ++ x :: q) {y : α} (hy : y ∈ p) : y ∈ l := by
  rw [h]; simp [hy]

theorem turns_append {D : Type} (p q : List (Event D)) : turns (p ++ q) = turns p ++ turns q := List.filterMap_append

theorem turns_split {D : Type} {log : List (Event D)} {P Q : List (Turn D)} {t : Nat} {r : Request} {a : Answer D}
    (h : turns log = P ++ (t, r, a) :: Q) : ∃ p q, log = p ++ .handled t r a :: q ∧ turns p = P ∧ turns q = Q := by
  induction log generalizing P with
  | nil => simp [turns] at h
  | cons e log ih =>
    have skip : turn e = none → ∀ l, turns (e :: l) = turns l := fun h l => by simp [turns, List.filterMap_cons, h]
    have other : turn e = none → ∃ p q, e :: log = p ++ .handled t r a :: q ∧ turns p = P ∧ turns q = Q := by
      intro hn
      rw [skip hn] at h
      obtain ⟨p, q, e1, e2, e3⟩ := ih h
      exact ⟨e :: p, q, by rw [e1]; rfl, by rw [skip hn, e2], e3⟩
    cases e with
    | handled t' r' a' =>
      have hc : turns (.handled t' r' a' :: log) = (t', r', a') :: turns log := by simp [turns, turn]
      rw [hc] at h
      cases P with
      | nil =>
        simp only [List.nil_append, List.cons.injEq, Prod.mk.injEq] at h
        obtain ⟨⟨rfl, rfl, rfl⟩, h⟩ := h
        exact ⟨[], log, rfl, rfl, h⟩
      | cons x P =>
        simp only [List.cons_append, List.cons.injEq] at h
        obtain ⟨rfl, h⟩ := h
        obtain ⟨p, q, e1, e2, e3⟩ := ih h
        exact ⟨.handled t' r' a' :: p, q, by rw [e1]; rfl, by simp only [← e2]; simp [turns, turn], e3⟩
    | _ => exact other rfl

/-- **C85** Whatever the schedule, there is an order of the handled requests that explains everything the clients see and
the hub as it is: one request at a time, none twice, none that was not sent, every answer a client gets being the answer
at its place, what was answered before another request was sent coming before it, and nothing coming before it that had
not been sent when it was answered. -/
theorem C85_serial (w : World A σ) (h : WReach env h0 w) : ∃ order, Explains env h0 order w.log w.hub := by
  have hI := h.winv
  have hO := hI.ordered
  refine ⟨turns w.log, hI.replay, hI.once, fun t r a hm => ?_, fun t a hm => ?_, fun t r a t' r' a' h1 h2 hb => ?_, fun t r a t' r' a' hb hg => ?_⟩
  · obtain ⟨p, q, e⟩ := List.append_of_mem (mem_turns.1 hm)
    exact mem_split e (hO.handled _ _ _ _ _ e).1
  · obtain ⟨p, q, e⟩ := List.append_of_mem hm
    obtain ⟨r, hp⟩ := hO.got _ _ _ _ e
    exact ⟨r, mem_turns.2 (mem_split e hp)⟩
  · obtain ⟨p, m, q, e⟩ := hb
    obtain ⟨r1, hp⟩ := hO.got _ _ _ _ e
    have e2 : w.log = (p ++ .got t a :: m) ++ .sent t' r' :: q := by rw [e]; simp
    -- the request sent later is handled later
    have hq : .handled t' r' a' ∈ q := by
      have hm := mem_turns.1 h2
      rw [e2] at hm
      rcases List.mem_append.1 hm with hm | hm
      · exfalso
        obtain ⟨p1, q1, e3⟩ := List.append_of_mem hm
        have hs := (hO.handled p1 t' r' a' (q1 ++ .sent t' r' :: q) (by rw [e2, e3]; simp)).1
        have hn := hO.nodup
        rw [e2, e3, List.nodup_append] at hn
        exact hn.2.2 (.sent t' r') (by simp [hs]) (.sent t' r') (by simp) rfl
      · rcases List.mem_cons.1 hm with hm | hm
        · cases hm
        · exact hm
    have hr1 : r1 = r := by
      have k1 : (t, r1, a) ∈ turns w.log := mem_turns.2 (mem_split e hp)
      obtain ⟨i, hi, e3⟩ := List.getElem_of_mem k1
      obtain ⟨j, hj, e4⟩ := List.getElem_of_mem h1
      have := (List.getElem_inj (xs := (turns w.log).map (·.1)) (i := i) (j := j) (h₀ := by simpa using hi) (h₁ := by simpa using hj) hI.once).1
        (by simp only [List.getElem_map, e3, e4])
      subst this
      rw [e3] at e4
      injection e4 with _ e4
      injection e4
    subst hr1
    obtain ⟨p1, p2, e5⟩ := List.append_of_mem hp
    obtain ⟨q1, q2, e6⟩ := List.append_of_mem hq
    refine ⟨turns p1, turns p2 ++ turns m ++ turns q1, turns q2, ?_⟩
    rw [e, e5, e6]
    simp [turns, turn, List.filterMap_append, List.filterMap_cons]
  · obtain ⟨P, M, Q, e⟩ := hb
    obtain ⟨p, q, e1, e2, e3⟩ := turns_split e
    obtain ⟨m, q2, e4, e5, e6⟩ := turns_split e3
    have hs := (hO.handled _ _ _ _ _ e1).1
    obtain ⟨l1, l2, e7⟩ := List.append_of_mem hg
    obtain ⟨r2, hh⟩ := hO.got _ _ _ _ e7
    have hq : .got t' a' ∈ q := by
      have hm := hg
      rw [e1] at hm
      rcases List.mem_append.1 hm with hm | hm
      · exfalso
        obtain ⟨p1, p2, e8⟩ := List.append_of_mem hm
        obtain ⟨r3, h3⟩ := hO.got p1 t' a' (p2 ++ .handled t r a :: q) (by rw [e1, e8]; simp)
        have hn := hI.once
        rw [e, List.map_append, List.nodup_append] at hn
        refine hn.2.2 t' (List.mem_map.2 ⟨(t', r3, a'), ?_, rfl⟩) t' (by simp) rfl
        rw [← e2, mem_turns, e8]; simp [h3]
      · rcases List.mem_cons.1 hm with hm | hm
        · cases hm
        · exact hm
    obtain ⟨p1, p2, e8⟩ := List.append_of_mem hs
    obtain ⟨q1, q3, e9⟩ := List.append_of_mem hq
    exact ⟨p1, p2 ++ .handled t r a :: q1, q3, by rw [e1, e8, e9]; simp⟩

/-- **C85** A call of a client ends at most once: with one answer of the server, or with an error. -/
theorem C85_one_outcome (w : World A σ) (h : WReach env h0 w) (t : Nat) :
    w.log.Nodup ∧ (∀ a a', .got t a ∈ w.log → .got t a' ∈ w.log → a = a') ∧ ∀ a, .got t a ∈ w.log → .failed t ∉ w.log :=
  ⟨h.winv.ordered.nodup, fun _ _ h1 h2 => ((h.winv.outcome _ _ h1).2 _ h2).symm, fun _ h1 => (h.winv.outcome _ _ h1).1⟩

/-- **C85** A request is handled by the handler of its method, for the call object it arrived at. -/
theorem C85_own_handler (w : World A σ) (h : WReach env h0 w) (t : Nat) (r : Request) (c : Server.Call)
    (h1 : .sent t r ∈ w.log) (h2 : .arrived t c.id ∈ w.log) (h3 : c ∈ w.sys.calls) : c.kind = r.kind :=
  h.winv.kind _ _ _ h2 h1 h3

/-- The answer's effect is the effect of `serve`. -/
theorem answer_serve {h h' : Hub A σ} {r : Request} {a : Answer A.D} (he : answer env h r = .ok (a, h')) : serve env h r = .ok h' := by
  cases r <;>
  · obtain ⟨⟨x, h1⟩, e1, e2⟩ := bind_ok.1 he
    cases e2
    simp only [serve, e1, ok_bind]

theorem Replay.split {h h' : Hub A σ} {p q : List (Turn A.D)} {t : Nat} {r : Request} {a : Answer A.D}
    (hr : Replay env h (p ++ (t, r, a) :: q) h') :
    ∃ h1 h2, Replay env h p h1 ∧ answer env h1 r = .ok (a, h2) ∧ Replay env h2 q h' := by
  induction p generalizing h with
  | nil =>
    cases hr with
    | cons e hr => exact ⟨_, _, .nil, e, hr⟩
  | cons x p ih =>
    cases hr with
    | cons e hr =>
      obtain ⟨h1, h2, k1, k2, k3⟩ := ih hr
      exact ⟨h1, h2, .cons e k1, k2, k3⟩

theorem Replay.serveAll {h h' : Hub A σ} {l : List (Turn A.D)} (hr : Replay env h l h') :
    serveAll env h (l.map (·.2.1)) = .ok h' := by
  induction hr with
  | nil => rfl
  | cons e _ ih => simp only [List.map_cons, Server.serveAll, answer_serve e, ok_bind]; exact ih

/-- **C85** So the hub of the running service is one that a history of requests, handled one at a time, leads to, and all
that is proved of such hubs holds of it. -/
theorem C85_reach {models : List σ} {cfg : HubConfig A.C} (hi : initializeModels env models cfg = .ok (some h0)) (w : World A σ)
    (h : WReach env h0 w) : ∃ order, Explains env h0 order w.log w.hub ∧
      Reach env models cfg (order.map (·.2.1)) w.hub := by
  obtain ⟨order, ho⟩ := C85_serial w h
  exact ⟨order, ho, h0, hi, ho.replay.serveAll⟩

/-- **C85** When the server's queue has been shut down, every request that reached the server has been handled. -/
theorem C85_shutdown (w : World A σ) (h : WReach env h0 w) (hq : w.sys.cqShut = true) (t id : Nat) (ha : .arrived t id ∈ w.log) :
    ∃ r a, .handled t r a ∈ w.log := by
  obtain ⟨h1, h2⟩ := C39_all_answered_at_queue_shutdown _ h.reachable hq
  refine h.winv.reply _ _ ha ?_
  rcases h.winv.taken _ _ ha with ⟨c, c1, _, c3⟩ | hx
  · exact absurd c3 (h1 c c1).1
  · exact List.count_pos_iff.1 (by have := h2 _ hx; omega)

/-- A run of the server by itself. -/
inductive InnerRun (env : Env A σ) : Nat → World A σ → World A σ → Prop
  | nil (w : World A σ) : InnerRun env 0 w w
  | cons {n : Nat} {w w' w'' : World A σ} : WStep env w w' → Inner w w' → InnerRun env n w' w'' → InnerRun env (n + 1) w w''

/-- **C85** By itself the server makes finitely many steps: a number that the calls and threads as they are determine. -/
theorem C85_comes_to_rest (n : Nat) (w w' : World A σ) (h : WReach env h0 w) (hr : InnerRun env n w w') : n ≤ effort w.sys := by
  induction hr with
  | nil => exact Nat.zero_le _
  | cons h1 h2 _ ih =>
    have := inner_effort h.reachable h1 h2
    have := ih (h.step h1)
    omega

/-- **C85** And when it comes to rest – also while or after it is shut down – every request that reached it has been
handled, if no handler fails. -/
theorem C85_all_handled (w : World A σ) (h : WReach env h0 w) (hq : AtRest env w)
    (htot : ∀ t r, .sent t r ∈ w.log → ∃ a h', answer env w.hub r = .ok (a, h')) (t id : Nat) (ha : .arrived t id ∈ w.log) :
    ∃ r a, .handled t r a ∈ w.log := by
  by_cases hc : w.sys.cqShut = true
  · exact C85_shutdown w h hc t id ha
  · exact h.winv.reply _ _ ha (rest_taken h hq (fun ⟨_, _, _, _, e⟩ => hc e) htot (h.winv.taken _ _ ha))

/-- **C85** So a request that reached the server can always be handled, and is, if the server is given the time. -/
theorem C85_eventually (w : World A σ) (h : WReach env h0 w)
    (htot : ∀ w', WReach env h0 w' → (∀ t r, .sent t r ∈ w'.log → .sent t r ∈ w.log) →
      ∀ t r, .sent t r ∈ w'.log → ∃ a h', answer env w'.hub r = .ok (a, h')) (t id : Nat) (ha : .arrived t id ∈ w.log) :
    ∃ n w', InnerRun env n w w' ∧ ∃ r a, .handled t r a ∈ w'.log := by
  generalize he : effort w.sys = k
  induction k using Nat.strongRecOn generalizing w with
  | _ k ih =>
    by_cases hq : AtRest env w
    · exact ⟨0, w, .nil w, C85_all_handled w h hq (htot w h fun _ _ h => h) t id ha⟩
    · simp only [AtRest, Classical.not_forall, Classical.not_not] at hq
      obtain ⟨w1, s1, i1⟩ := hq
      have hl : .arrived t id ∈ w1.log := by
        cases s1 with
        | server s _ _ _ => exact ha
        | _ => exact List.mem_append_left _ ha
      have hb : ∀ t r, .sent t r ∈ w1.log → .sent t r ∈ w.log := by
        intro t r hm
        rcases i1.2.2 _ hm with hm | ⟨_, _, _, e⟩
        · exact hm
        · cases e
      obtain ⟨n, w2, r2, g⟩ := ih _ (by rw [← he]; exact inner_effort h.reachable s1 i1) w1 (h.step s1)
        (fun w' h' hs => htot w' h' fun t r hm => hb _ _ (hs t r hm)) hl rfl
      exact ⟨n + 1, w2, .cons s1 i1 r2, g⟩

end Mozolm.Server
