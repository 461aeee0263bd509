import Verif.Server.ServiceSpec
import Verif.Props.ServerLifecycle

/-! # Invariant of the service -/

namespace Mozolm.Server
open Mozolm.Hub

variable {A : Arith} {σ : Type} {env : Env A σ} {h0 : Hub A σ}

/-- the call object has received a request -/
def Taken (s : Sys) (id : Nat) : Prop := At s.calls id .readyOk ∨ id ∈ s.accepted

theorem ActStep.taken {s s' : Sys} {acts acts' R : List Act} (h : ActStep s acts s' acts') (hc : Core s (acts ++ R)) {id : Nat}
    (ht : Taken s id) : Taken s' id := by
  rcases ht with ht | ht
  · cases h with
    | arm k rest hq =>
      obtain ⟨c, h1, h2⟩ := ht
      exact .inl ⟨c, List.mem_append_left _ h1, h2⟩
    | handle i rest hq =>
      refine .inl (setPhase_at.2 (.inr ⟨?_, ht⟩))
      rintro rfl
      rcases hc.ch id with ⟨_, b⟩ | ⟨a, _⟩
      · cases at_unique hc.nodup ht b
      · simp at a
    | free i rest hl =>
      refine .inl (removeCall_at.2 ⟨?_, ht⟩)
      rintro rfl
      rcases hc.cf id with ⟨_, b⟩ | ⟨a, _⟩
      · cases at_unique hc.nodup ht b
      · simp at a
    | driveOk rest c h1 h2 =>
      by_cases e : id = c.id
      · exact .inr (by simp [e])
      · exact .inl (setPhase_at.2 (.inr ⟨e, ht⟩))
    | driveClose rest c h1 h2 =>
      refine .inl (setPhase_at.2 (.inr ⟨?_, ht⟩))
      rintro rfl
      have := at_unique hc.nodup ht ⟨c, h1, rfl, rfl⟩
      rcases h2 with h2 | h2 <;> rw [h2] at this <;> cases this
    | _ => exact .inl ht
  · cases h with
    | driveOk rest c h1 h2 => exact .inr (List.mem_cons_of_mem _ ht)
    | _ => exact .inr ht

theorem Step.taken {s s' : Sys} (h : Step s s') (hr : Reachable s) {id : Nat} (ht : Taken s id) : Taken s' id := by
  have move : ∀ (c : Server.Call) (q : Phase), c ∈ s.calls → (c.phase = .readyOk → False) →
      Taken { s with calls := setPhase s.calls c.id q } id := by
    intro c q hc hp
    rcases ht with ht | ht
    · refine .inl (setPhase_at.2 (.inr ⟨?_, ht⟩))
      rintro rfl
      exact hp (at_unique hr.inv.core.nodup ⟨c, hc, rfl, rfl⟩ ht)
    · exact .inr ht
  cases h with
  | thread s1 t acts acts' h1 h2 =>
    obtain ⟨R, hR, _⟩ := flatten_set h1
    exact h2.taken (hr.inv.core.perm hR) ht
  | callShutdown => exact ht
  | arrive c h1 h2 h3 => exact move c _ h2 (by rw [h3]; simp)
  | cancel c h1 h2 h3 => exact move c _ h2 (by rw [h3]; simp)
  | finished c h1 h2 => exact move c _ h1 (by rw [h2]; simp)

theorem Step.accepted {s s' : Sys} (h : Step s s') {id : Nat} (ht : id ∈ s'.accepted) : Taken s id := by
  cases h with
  | thread s1 t acts acts' h1 h2 =>
    cases h2 with
    | driveOk rest c h3 h4 =>
      rcases List.mem_cons.1 ht with rfl | ht
      · exact .inl ⟨c, h3, rfl, h4⟩
      · exact .inr ht
    | _ => exact .inr ht
  | callShutdown => exact .inr ht
  | arrive c h1 h2 h3 => exact .inr ht
  | cancel c h1 h2 h3 => exact .inr ht
  | finished c h1 h2 => exact .inr ht

/-- The step of the life cycle in a handling step. -/
theorem handle_step {s : Sys} {n id : Nat} {rest : List Act} (ht : s.threads[n]? = some (.handle id :: rest)) (hq : s.cqShut = false) :
    Step s { s with calls := setPhase s.calls id .finishing, replied := id :: s.replied, threads := s.threads.set n rest } :=
  .thread _ _ n _ _ ht (.handle _ _ _ hq)

theorem handle_at {s : Sys} (hr : Reachable s) {n id : Nat} {rest : List Act} (ht : s.threads[n]? = some (.handle id :: rest)) :
    At s.calls id .processing ∧ id ∉ s.replied := by
  have hm : Act.handle id ∈ s.acts := List.mem_flatten.2 ⟨_, List.mem_of_getElem? ht, by simp⟩
  have hpos : 0 < s.acts.count (.handle id) := List.count_pos_iff.2 hm
  have hat : At s.calls id .processing := by
    rcases hr.inv.core.ch id with ⟨_, x⟩ | ⟨x, _⟩
    · exact x
    · omega
  refine ⟨hat, fun h => ?_⟩
  rcases (hr.inv.core.rep id h).2 with b | b | b | b
  · exact (hr.inv.core.freedLt id b).2 hat.live
  · cases at_unique hr.inv.core.nodup hat b
  · cases at_unique hr.inv.core.nodup hat b
  · cases at_unique hr.inv.core.nodup hat b

theorem WReach.reachable {w : World A σ} (h : WReach env h0 w) : Reachable w.sys := by
  induction h with
  | start => exact .init
  | step _ hs ih =>
    cases hs with
    | send t r h => exact ih
    | arrive t r c h1 h2 h3 h4 h5 h6 => exact ih.step (.arrive _ c h3 h4 h5)
    | handle n id rest t r a hub' h1 h2 => exact ih.step (handle_step h1 h2)
    | server s h1 => exact ih.step h1
    | get t a h => exact ih
    | fail t r h => exact ih

/-- the method of the call object -/
theorem setPhase_kind {calls : List Server.Call} {id : Nat} {p : Phase} {c : Server.Call} (h : c ∈ setPhase calls id p) :
    ∃ c0 ∈ calls, c0.id = c.id ∧ c0.kind = c.kind := by
  obtain ⟨c0, h1, rfl⟩ := List.mem_map.1 h
  refine ⟨c0, h1, ?_⟩
  split <;> simp

theorem Step.kind {s s' : Sys} (h : Step s s') {c : Server.Call} (hc : c ∈ s'.calls) :
    (∃ c0 ∈ s.calls, c0.id = c.id ∧ c0.kind = c.kind) ∨ c.phase = .armed := by
  have same : c ∈ s.calls → (∃ c0 ∈ s.calls, c0.id = c.id ∧ c0.kind = c.kind) ∨ c.phase = .armed := fun h => .inl ⟨c, h, rfl, rfl⟩
  cases h with
  | thread s1 t acts acts' h1 h2 =>
    cases h2 with
    | arm k rest hq =>
      rcases List.mem_append.1 hc with hc | hc
      · exact same hc
      · rw [List.mem_singleton] at hc; subst hc; exact .inr rfl
    | handle i rest hq => exact .inl (setPhase_kind hc)
    | free i rest hl => exact same (List.mem_filter.1 hc).1
    | driveOk rest c h1 h2 => exact .inl (setPhase_kind hc)
    | driveClose rest c h1 h2 => exact .inl (setPhase_kind hc)
    | _ => exact same hc
  | callShutdown => exact same hc
  | arrive c1 h1 h2 h3 => exact .inl (setPhase_kind hc)
  | cancel c1 h1 h2 h3 => exact .inl (setPhase_kind hc)
  | finished c1 h1 h2 => exact .inl (setPhase_kind hc)

/-! ## the log -/

/-- What the events of a log presuppose. -/
structure Ordered {D : Type} (log : List (Event D)) : Prop where
  nodup : log.Nodup
  arrived : ∀ p t id q, log = p ++ .arrived t id :: q → ∃ r, .sent t r ∈ p
  handled : ∀ p t r a q, log = p ++ .handled t r a :: q → .sent t r ∈ p ∧ ∃ id, .arrived t id ∈ p
  got : ∀ p t a q, log = p ++ .got t a :: q → ∃ r, .handled t r a ∈ p
  failed : ∀ p t q, log = p ++ .failed t :: q → ∃ r, .sent t r ∈ p

theorem snoc_split {α : Type} {l : List α} {x y : α} {p q : List α} (h : l ++ [x] = p ++ y :: q) :
    (q = [] ∧ y = x ∧ p = l) ∨ ∃ q', q = q' ++ [x] ∧ l = p ++ y :: q' := by
  rcases List.eq_nil_or_concat q with rfl | ⟨q', z, rfl⟩
  · obtain ⟨h1, h2⟩ := List.append_inj' h rfl
    exact .inl ⟨rfl, by simpa using h2.symm, h1.symm⟩
  · rw [List.concat_eq_append] at h ⊢
    rw [← List.cons_append, ← List.append_assoc] at h
    obtain ⟨h1, h2⟩ := List.append_inj' h rfl
    exact .inr ⟨q', by rw [show x = z by simpa using h2], h1⟩

theorem Ordered.nil {D : Type} : Ordered ([] : List (Event D)) :=
  ⟨List.nodup_nil, by simp, by simp, by simp, by simp⟩

theorem Ordered.snoc {D : Type} {log : List (Event D)} (h : Ordered log) {e : Event D} (hn : e ∉ log)
    (h1 : ∀ t id, e = .arrived t id → ∃ r, .sent t r ∈ log)
    (h2 : ∀ t r a, e = .handled t r a → .sent t r ∈ log ∧ ∃ id, .arrived t id ∈ log)
    (h3 : ∀ t a, e = .got t a → ∃ r, .handled t r a ∈ log)
    (h4 : ∀ t, e = .failed t → ∃ r, .sent t r ∈ log) : Ordered (log ++ [e]) where
  nodup := by
    rw [List.nodup_append]
    exact ⟨h.nodup, by simp, fun a ha b hb => by rw [List.mem_singleton] at hb; subst hb; rintro rfl; exact hn ha⟩
  arrived := by
    intro p t id q he
    rcases snoc_split he with ⟨_, rfl, rfl⟩ | ⟨q', _, he⟩
    · exact h1 _ _ rfl
    · exact h.arrived _ _ _ _ he
  handled := by
    intro p t r a q he
    rcases snoc_split he with ⟨_, rfl, rfl⟩ | ⟨q', _, he⟩
    · exact h2 _ _ _ rfl
    · exact h.handled _ _ _ _ _ he
  got := by
    intro p t a q he
    rcases snoc_split he with ⟨_, rfl, rfl⟩ | ⟨q', _, he⟩
    · exact h3 _ _ rfl
    · exact h.got _ _ _ _ he
  failed := by
    intro p t q he
    rcases snoc_split he with ⟨_, rfl, rfl⟩ | ⟨q', _, he⟩
    · exact h4 _ rfl
    · exact h.failed _ _ _ he

/-- The requests in the order in which they were handled. -/
def turn {D : Type} : Event D → Option (Turn D)
  | .handled t r a => some (t, r, a)
  | _ => none

def turns {D : Type} (log : List (Event D)) : List (Turn D) := log.filterMap turn

theorem mem_turns {D : Type} {log : List (Event D)} {t : Nat} {r : Request} {a : Answer D} :
    (t, r, a) ∈ turns log ↔ .handled t r a ∈ log := by
  simp only [turns, List.mem_filterMap]
  constructor
  · rintro ⟨e, h1, h2⟩
    cases e <;> simp only [turn, reduceCtorEq, Option.some.injEq, Prod.mk.injEq] at h2
    obtain ⟨rfl, rfl, rfl⟩ := h2
    exact h1
  · exact fun h => ⟨_, h, rfl⟩

theorem turns_snoc {D : Type} (log : List (Event D)) (e : Event D) : turns (log ++ [e]) = turns log ++ (turn e).toList := by
  simp only [turns, List.filterMap_append, List.filterMap_cons, List.filterMap_nil]
  cases turn e <;> rfl

theorem Replay.snoc {h h1 h' : Hub A σ} {l : List (Turn A.D)} (hr : Replay env h l h1) {t : Nat} {r : Request} {a : Answer A.D}
    (ha : answer env h1 r = .ok (a, h')) : Replay env h (l ++ [(t, r, a)]) h' := by
  induction hr with
  | nil => exact .cons ha .nil
  | cons e _ ih => exact .cons e (ih ha)

/-! ## the invariant -/

structure WInv (env : Env A σ) (h0 : Hub A σ) (w : World A σ) : Prop where
  ordered : Ordered w.log
  sentOne : ∀ t r r', .sent t r ∈ w.log → .sent t r' ∈ w.log → r = r'
  taken : ∀ t id, .arrived t id ∈ w.log → Taken w.sys id
  bound : ∀ id, Taken w.sys id → ∃ t, .arrived t id ∈ w.log
  ticket : ∀ t t' id, .arrived t id ∈ w.log → .arrived t' id ∈ w.log → t = t'
  object : ∀ t id id', .arrived t id ∈ w.log → .arrived t id' ∈ w.log → id = id'
  kind : ∀ t r c, .arrived t c.id ∈ w.log → .sent t r ∈ w.log → c ∈ w.sys.calls → c.kind = r.kind
  done : ∀ t r a id, .handled t r a ∈ w.log → .arrived t id ∈ w.log → id ∈ w.sys.replied
  reply : ∀ t id, .arrived t id ∈ w.log → id ∈ w.sys.replied → ∃ r a, .handled t r a ∈ w.log
  once : ((turns w.log).map (·.1)).Nodup
  outcome : ∀ t a, .got t a ∈ w.log → .failed t ∉ w.log ∧ ∀ a', .got t a' ∈ w.log → a' = a
  replay : Replay env h0 (turns w.log) w.hub

theorem WReach.winv {w : World A σ} (h : WReach env h0 w) : WInv env h0 w := by
  induction h with
  | start =>
    refine ⟨.nil, by simp, by simp, ?_, by simp, by simp, by simp, by simp, by simp, by simp [turns], by simp, .nil⟩
    rintro id (h | h)
    · exact absurd h no_call
    · simp [Sys.init] at h
  | @step w w' hw hs ih =>
    have hr := hw.reachable
    cases hs with
    | send t r h =>
      have mem : ∀ e : Event A.D, e ∈ w.log ++ [.sent t r] → e ∈ w.log ∨ e = .sent t r := fun e he => by simpa using he
      have old : ∀ e : Event A.D, (∀ t r, e ≠ .sent t r) → e ∈ w.log ++ [.sent t r] → e ∈ w.log := fun e h1 he =>
        (mem e he).resolve_right (h1 _ _)
      have up : ∀ {e : Event A.D}, e ∈ w.log → e ∈ w.log ++ [.sent t r] := fun he => List.mem_append_left _ he
      have noArr : ∀ id, .arrived t id ∉ w.log := by
        intro id hm
        obtain ⟨p, q, e⟩ := List.append_of_mem hm
        obtain ⟨r', hp⟩ := ih.ordered.arrived _ _ _ _ e
        exact h r' (by rw [e]; simp [hp])
      refine ⟨ih.ordered.snoc (h r) (by simp) (by simp) (by simp) (by simp), ?_, ?_, ?_, ?_, ?_, ?_, ?_, ?_, ?_, ?_, ?_⟩
      · intro t' r1 r2 h1 h2
        rcases mem _ h1 with h1 | h1 <;> rcases mem _ h2 with h2 | h2
        · exact ih.sentOne _ _ _ h1 h2
        · cases h2; exact absurd h1 (h _)
        · cases h1; exact absurd h2 (h _)
        · cases h1; cases h2; rfl
      · intro t' id h1; exact ih.taken _ _ (old _ (by simp) h1)
      · intro id h1; obtain ⟨t', h2⟩ := ih.bound id h1; exact ⟨t', up h2⟩
      · intro t1 t2 id h1 h2; exact ih.ticket _ _ _ (old _ (by simp) h1) (old _ (by simp) h2)
      · intro t1 id id' h1 h2; exact ih.object _ _ _ (old _ (by simp) h1) (old _ (by simp) h2)
      · intro t1 r1 c h1 h2 h3
        have h1 := old _ (by simp) h1
        rcases mem _ h2 with h2 | h2
        · exact ih.kind _ _ _ h1 h2 h3
        · cases h2; exact absurd h1 (noArr _)
      · intro t1 r1 a id h1 h2; exact ih.done _ _ _ _ (old _ (by simp) h1) (old _ (by simp) h2)
      · intro t1 id h1 h2; obtain ⟨r1, a, h3⟩ := ih.reply _ _ (old _ (by simp) h1) h2; exact ⟨r1, a, up h3⟩
      · rw [turns_snoc]; simpa [turn] using ih.once
      · intro t1 a h1
        obtain ⟨h2, h3⟩ := ih.outcome _ _ (old _ (by simp) h1)
        exact ⟨fun h4 => h2 (old _ (by simp) h4), fun a' h4 => h3 a' (old _ (by simp) h4)⟩
      · show Replay env h0 (turns (w.log ++ _)) w.hub
        rw [turns_snoc]; simpa [turn] using ih.replay
    | arrive t r c h1 h2 h3 h4 h5 h6 =>
      have mem : ∀ e : Event A.D, e ∈ w.log ++ [.arrived t c.id] → e ∈ w.log ∨ e = .arrived t c.id := fun e he => by simpa using he
      have old : ∀ e : Event A.D, (∀ t r, e ≠ .arrived t r) → e ∈ w.log ++ [.arrived t c.id] → e ∈ w.log := fun e h1 he =>
        (mem e he).resolve_right (h1 _ _)
      have up : ∀ {e : Event A.D}, e ∈ w.log → e ∈ w.log ++ [.arrived t c.id] := fun he => List.mem_append_left _ he
      have st : Step w.sys { w.sys with calls := setPhase w.sys.calls c.id .readyOk } := .arrive _ c h3 h4 h5
      have hat : At w.sys.calls c.id .armed := ⟨c, h4, rfl, h5⟩
      have hno : ¬ Taken w.sys c.id := by
        rintro (hx | hx)
        · cases at_unique hr.inv.core.nodup hat hx
        · exact hr.inv.core.early _ (.inl hat) hx
      have noArr : ∀ t', .arrived t' c.id ∉ w.log := fun t' hm => hno (ih.taken _ _ hm)
      refine ⟨ih.ordered.snoc (h2 _) (fun t' id e => ?_) (by simp) (by simp) (by simp), ?_, ?_, ?_, ?_, ?_, ?_, ?_, ?_, ?_, ?_, ?_⟩
      · cases e; exact ⟨r, h1⟩
      · intro t' r1 r2 g1 g2; exact ih.sentOne _ _ _ (old _ (by simp) g1) (old _ (by simp) g2)
      · intro t' id g1
        rcases mem _ g1 with g1 | g1
        · exact st.taken hr (ih.taken _ _ g1)
        · cases g1; exact .inl (setPhase_at.2 (.inl ⟨rfl, rfl, hat.live⟩))
      · intro id g1
        rcases g1 with g1 | g1
        · rcases setPhase_at.1 g1 with ⟨rfl, _⟩ | ⟨_, g2⟩
          · exact ⟨t, by simp⟩
          · obtain ⟨t', g3⟩ := ih.bound id (.inl g2); exact ⟨t', up g3⟩
        · obtain ⟨t', g3⟩ := ih.bound id (.inr g1); exact ⟨t', up g3⟩
      · intro t1 t2 id g1 g2
        rcases mem _ g1 with g1 | g1 <;> rcases mem _ g2 with g2 | g2
        · exact ih.ticket _ _ _ g1 g2
        · cases g2; exact absurd g1 (noArr _)
        · cases g1; exact absurd g2 (noArr _)
        · cases g1; cases g2; rfl
      · intro t1 id id' g1 g2
        rcases mem _ g1 with g1 | g1 <;> rcases mem _ g2 with g2 | g2
        · exact ih.object _ _ _ g1 g2
        · cases g2; exact absurd g1 (h2 _)
        · cases g1; exact absurd g2 (h2 _)
        · cases g1; cases g2; rfl
      · intro t1 r1 c1 g1 g2 g3
        have g2' := old _ (by simp) g2
        obtain ⟨c0, k1, k2, k3⟩ := setPhase_kind g3
        rcases mem _ g1 with g1 | g1
        · rw [← k3]; rw [← k2] at g1; exact ih.kind _ _ _ g1 g2' k1
        · simp only [Event.arrived.injEq] at g1
          obtain ⟨rfl, g4⟩ := g1
          have hcc : c0 = c := by
            have e : c0.id = c.id := k2.trans g4
            obtain ⟨i, hi, rfl⟩ := List.getElem_of_mem k1
            obtain ⟨j, hj, rfl⟩ := List.getElem_of_mem h4
            have := (List.getElem_inj (xs := w.sys.calls.map Call.id) (i := i) (j := j) (h₀ := by simpa using hi) (h₁ := by simpa using hj) hr.inv.core.nodup).1 (by simpa using e)
            subst this; rfl
          rw [← k3, hcc, ih.sentOne _ _ _ g2' h1]; exact h6
      · intro t1 r1 a id g1 g2
        have g1 := old _ (by simp) g1
        rcases mem _ g2 with g2 | g2
        · exact ih.done _ _ _ _ g1 g2
        · cases g2
          obtain ⟨p, q, e⟩ := List.append_of_mem g1
          obtain ⟨_, id, hp⟩ := ih.ordered.handled _ _ _ _ _ e
          exact absurd (by rw [e]; simp [hp]) (h2 id)
      · intro t1 id g1 g2
        rcases mem _ g1 with g1 | g1
        · obtain ⟨r1, a, g3⟩ := ih.reply _ _ g1 g2; exact ⟨r1, a, up g3⟩
        · cases g1; exact absurd (.inr (hr.inv.core.rep _ g2).1) hno
      · rw [turns_snoc]; simpa [turn] using ih.once
      · intro t1 a g1
        obtain ⟨g2, g3⟩ := ih.outcome _ _ (old _ (by simp) g1)
        exact ⟨fun h4 => g2 (old _ (by simp) h4), fun a' h4 => g3 a' (old _ (by simp) h4)⟩
      · show Replay env h0 (turns (w.log ++ _)) w.hub
        rw [turns_snoc]; simpa [turn] using ih.replay
    | handle n id rest t r a hub' h1 h2 h3 h4 h5 =>
      have mem : ∀ e : Event A.D, e ∈ w.log ++ [.handled t r a] → e ∈ w.log ∨ e = .handled t r a := fun e he => by simpa using he
      have old : ∀ e : Event A.D, (∀ t r a, e ≠ .handled t r a) → e ∈ w.log ++ [.handled t r a] → e ∈ w.log := fun e h1 he =>
        (mem e he).resolve_right (h1 _ _ _)
      have up : ∀ {e : Event A.D}, e ∈ w.log → e ∈ w.log ++ [.handled t r a] := fun he => List.mem_append_left _ he
      have st := handle_step h1 h2
      obtain ⟨hat, hnr⟩ := handle_at hr h1
      have noH : ∀ r a, .handled t r a ∉ w.log := fun r a hm => hnr (ih.done _ _ _ _ hm h3)
      refine ⟨ih.ordered.snoc (noH _ _) (by simp) (fun t' r' a' e => ?_) (by simp) (by simp), ?_, ?_, ?_, ?_, ?_, ?_, ?_, ?_, ?_, ?_, ?_⟩
      · cases e; exact ⟨h4, id, h3⟩
      · intro t' r1 r2 g1 g2; exact ih.sentOne _ _ _ (old _ (by simp) g1) (old _ (by simp) g2)
      · intro t' id' g1; exact st.taken hr (ih.taken _ _ (old _ (by simp) g1))
      · intro id' g1
        have : Taken w.sys id' := by
          rcases g1 with g1 | g1
          · rcases setPhase_at.1 g1 with ⟨_, g2, _⟩ | ⟨_, g2⟩
            · cases g2
            · exact .inl g2
          · exact .inr g1
        obtain ⟨t', g3⟩ := ih.bound id' this; exact ⟨t', up g3⟩
      · intro t1 t2 id h1 h2; exact ih.ticket _ _ _ (old _ (by simp) h1) (old _ (by simp) h2)
      · intro t1 id id' h1 h2; exact ih.object _ _ _ (old _ (by simp) h1) (old _ (by simp) h2)
      · intro t1 r1 c1 g1 g2 g3
        obtain ⟨c0, k1, k2, k3⟩ := setPhase_kind g3
        rw [← k3]
        exact ih.kind _ _ _ (by rw [k2]; exact old _ (by simp) g1) (old _ (by simp) g2) k1
      · intro t1 r1 a1 id1 g1 g2
        have g2 := old _ (by simp) g2
        rcases mem _ g1 with g1 | g1
        · exact List.mem_cons_of_mem _ (ih.done _ _ _ _ g1 g2)
        · cases g1; rw [ih.object _ _ _ g2 h3]; exact List.mem_cons_self ..
      · intro t1 id1 g1 g2
        have g1' := old _ (by simp) g1
        rcases List.mem_cons.1 g2 with rfl | g2
        · rw [ih.ticket _ _ _ g1' h3]; exact ⟨r, a, by simp⟩
        · obtain ⟨r1, a1, g3⟩ := ih.reply _ _ g1' g2; exact ⟨r1, a1, up g3⟩
      · rw [turns_snoc]
        simp only [turn, Option.toList_some, List.map_append, List.map_cons, List.map_nil]
        rw [List.nodup_append]
        refine ⟨ih.once, by simp, fun x hx y hy => ?_⟩
        rw [List.mem_singleton] at hy
        rintro rfl
        obtain ⟨⟨t1, r1, a1⟩, k1, k2⟩ := List.mem_map.1 hx
        simp only at k2
        subst k2; subst hy
        exact noH _ _ (mem_turns.1 k1)
      · intro t1 a g1
        obtain ⟨g2, g3⟩ := ih.outcome _ _ (old _ (by simp) g1)
        exact ⟨fun h4 => g2 (old _ (by simp) h4), fun a' h4 => g3 a' (old _ (by simp) h4)⟩
      · show Replay env h0 (turns (w.log ++ _)) hub'
        rw [turns_snoc]
        exact ih.replay.snoc h5
    | server s h1 h2 h3 =>
      refine ⟨ih.ordered, ih.sentOne, fun t id g1 => h1.taken hr (ih.taken _ _ g1), fun id g1 => ?_, ih.ticket, ih.object, ?_, ?_, ?_, ih.once,
        ih.outcome, ih.replay⟩
      · refine ih.bound id ?_
        rcases g1 with g1 | g1
        · exact .inl (h3 _ g1)
        · exact h1.accepted g1
      · intro t r c g1 g2 g3
        rcases h1.kind g3 with ⟨c0, k1, k2, k3⟩ | hp
        · rw [← k3]; rw [← k2] at g1; exact ih.kind _ _ _ g1 g2 k1
        · exfalso
          have hr' := hr.step h1
          have hat : At s.calls c.id .armed := ⟨c, g3, rfl, hp⟩
          rcases h1.taken hr (ih.taken _ _ g1) with hx | hx
          · cases at_unique hr'.inv.core.nodup hat hx
          · exact hr'.inv.core.early _ (.inl hat) hx
      · intro t r a id g1 g2; rw [h2]; exact ih.done _ _ _ _ g1 g2
      · intro t id g1 g2; rw [h2] at g2; exact ih.reply _ _ g1 g2
    | get t r a h ho =>
      have mem : ∀ e : Event A.D, e ∈ w.log ++ [.got t a] → e ∈ w.log ∨ e = .got t a := fun e he => by simpa using he
      have old : ∀ e : Event A.D, (∀ t r, e ≠ .got t r) → e ∈ w.log ++ [.got t a] → e ∈ w.log := fun e h1 he =>
        (mem e he).resolve_right (h1 _ _)
      have up : ∀ {e : Event A.D}, e ∈ w.log → e ∈ w.log ++ [.got t a] := fun he => List.mem_append_left _ he
      refine ⟨ih.ordered.snoc (ho.1 a) (by simp) (by simp) (fun t' a' e => ?_) (by simp), ?_, ?_, ?_, ?_, ?_, ?_, ?_, ?_, ?_, ?_, ?_⟩
      · cases e; exact ⟨r, h⟩
      · intro t' r1 r2 g1 g2; exact ih.sentOne _ _ _ (old _ (by simp) g1) (old _ (by simp) g2)
      · intro t' id h1; exact ih.taken _ _ (old _ (by simp) h1)
      · intro id h1; obtain ⟨t', h2⟩ := ih.bound id h1; exact ⟨t', up h2⟩
      · intro t1 t2 id h1 h2; exact ih.ticket _ _ _ (old _ (by simp) h1) (old _ (by simp) h2)
      · intro t1 id id' h1 h2; exact ih.object _ _ _ (old _ (by simp) h1) (old _ (by simp) h2)
      · intro t1 r1 c h1 h2 h3; exact ih.kind _ _ _ (old _ (by simp) h1) (old _ (by simp) h2) h3
      · intro t1 r1 a id h1 h2; exact ih.done _ _ _ _ (old _ (by simp) h1) (old _ (by simp) h2)
      · intro t1 id h1 h2; obtain ⟨r1, a, h3⟩ := ih.reply _ _ (old _ (by simp) h1) h2; exact ⟨r1, a, up h3⟩
      · rw [turns_snoc]; simpa [turn] using ih.once
      · intro t1 a1 h1
        rcases mem _ h1 with h1 | h1
        · obtain ⟨h2, h3⟩ := ih.outcome _ _ h1
          refine ⟨fun h4 => h2 (old _ (by simp) h4), fun a' h4 => ?_⟩
          rcases mem _ h4 with h4 | h4
          · exact h3 a' h4
          · cases h4; exact absurd h1 (ho.1 _)
        · cases h1
          refine ⟨fun h4 => ho.2 (old _ (by simp) h4), fun a' h4 => ?_⟩
          rcases mem _ h4 with h4 | h4
          · exact absurd h4 (ho.1 _)
          · cases h4; rfl
      · show Replay env h0 (turns (w.log ++ _)) w.hub
        rw [turns_snoc]; simpa [turn] using ih.replay
    | fail t r h ho =>
      have mem : ∀ e : Event A.D, e ∈ w.log ++ [.failed t] → e ∈ w.log ∨ e = .failed t := fun e he => by simpa using he
      have old : ∀ e : Event A.D, (∀ t, e ≠ .failed t) → e ∈ w.log ++ [.failed t] → e ∈ w.log := fun e h1 he =>
        (mem e he).resolve_right (h1 _)
      have up : ∀ {e : Event A.D}, e ∈ w.log → e ∈ w.log ++ [.failed t] := fun he => List.mem_append_left _ he
      refine ⟨ih.ordered.snoc ho.2 (by simp) (by simp) (by simp) (fun t' e => ?_), ?_, ?_, ?_, ?_, ?_, ?_, ?_, ?_, ?_, ?_, ?_⟩
      · cases e; exact ⟨r, h⟩
      · intro t' r1 r2 g1 g2; exact ih.sentOne _ _ _ (old _ (by simp) g1) (old _ (by simp) g2)
      · intro t' id h1; exact ih.taken _ _ (old _ (by simp) h1)
      · intro id h1; obtain ⟨t', h2⟩ := ih.bound id h1; exact ⟨t', up h2⟩
      · intro t1 t2 id h1 h2; exact ih.ticket _ _ _ (old _ (by simp) h1) (old _ (by simp) h2)
      · intro t1 id id' h1 h2; exact ih.object _ _ _ (old _ (by simp) h1) (old _ (by simp) h2)
      · intro t1 r1 c h1 h2 h3; exact ih.kind _ _ _ (old _ (by simp) h1) (old _ (by simp) h2) h3
      · intro t1 r1 a id h1 h2; exact ih.done _ _ _ _ (old _ (by simp) h1) (old _ (by simp) h2)
      · intro t1 id h1 h2; obtain ⟨r1, a, h3⟩ := ih.reply _ _ (old _ (by simp) h1) h2; exact ⟨r1, a, up h3⟩
      · rw [turns_snoc]; simpa [turn] using ih.once
      · intro t1 a1 h1
        have h1 := old _ (by simp) h1
        obtain ⟨h2, h3⟩ := ih.outcome _ _ h1
        refine ⟨fun h4 => ?_, fun a' h4 => h3 a' (old _ (by simp) h4)⟩
        rcases mem _ h4 with h4 | h4
        · exact h2 h4
        · cases h4; exact ho.1 _ h1
      · show Replay env h0 (turns (w.log ++ _)) w.hub
        rw [turns_snoc]; simpa [turn] using ih.replay

end Mozolm.Server
