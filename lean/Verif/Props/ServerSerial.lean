import Verif.Props.ServerLifecycle

/-!
# C71: requests are handled one at a time

The hub has no lock of its own, so this is what keeps requests from interfering.
-/

namespace Mozolm.Server

/-- The thread has taken up the request of this call and not answered it yet. -/
def Handling (s : Sys) (t id : Nat) : Prop := ∃ acts, s.threads[t]? = some acts ∧ Act.handle id ∈ acts

def isHandle : Act → Bool
  | .handle _ => true
  | _ => false

/-- thread 0 runs the server: at most one request, before the loop goes on -/
structure Running (acts : List Act) : Prop where
  one : acts.countP isHandle ≤ 1
  loop : ∀ pre rest, acts = pre ++ .drive :: rest → rest.countP isHandle = 0

/-- the other threads are calls of `Shutdown`: they serve the queue only after it was shut down -/
structure Ending (cqShut : Bool) (acts : List Act) : Prop where
  none : acts.countP isHandle = 0
  loop : ∀ pre rest, acts = pre ++ .drive :: rest → cqShut = true ∨ Act.cqShutdown ∈ pre

theorem Running.tail {a : Act} {rest : List Act} (h : Running (a :: rest)) : Running rest := by
  refine ⟨Nat.le_trans ?_ h.one, fun pre rest' e => h.loop (a :: pre) rest' (by rw [e]; rfl)⟩
  rw [List.countP_cons]; omega

theorem Running.nil : Running [] := ⟨by simp, fun pre rest e => by cases pre <;> simp at e⟩

theorem Running.cons {a : Act} (ha : isHandle a = false) (hd : a ≠ .drive) {rest : List Act} (h : Running rest) :
    Running (a :: rest) := by
  refine ⟨by rw [List.countP_cons_of_neg (by simp [ha])]; exact h.one, fun pre rest' e => ?_⟩
  cases pre with
  | nil => simp only [List.nil_append, List.cons.injEq] at e; exact absurd e.1 hd
  | cons b pre =>
    simp only [List.cons_append, List.cons.injEq] at e
    exact h.loop pre rest' e.2

theorem Running.handle {id : Nat} {rest : List Act} (h : Running rest) (h0 : rest.countP isHandle = 0) :
    Running (.handle id :: rest) := by
  refine ⟨by rw [List.countP_cons]; simp [h0, isHandle], fun pre rest' e => ?_⟩
  cases pre with
  | nil => simp at e
  | cons b pre =>
    simp only [List.cons_append, List.cons.injEq] at e
    exact h.loop pre rest' e.2

theorem Ending.tail {b : Bool} {a : Act} {rest : List Act} (h : Ending b (a :: rest)) (ha : a ≠ .cqShutdown) : Ending b rest := by
  have h0 := h.none
  rw [List.countP_cons] at h0
  refine ⟨by omega, fun pre rest' e => ?_⟩
  rcases h.loop (a :: pre) rest' (by rw [e]; rfl) with h1 | h1
  · exact .inl h1
  · rcases List.mem_cons.1 h1 with h2 | h2
    · exact absurd h2.symm ha
    · exact .inr h2

theorem Ending.nil {b : Bool} : Ending b [] := ⟨by simp, fun pre rest e => by cases pre <;> simp at e⟩

theorem Ending.cons {b : Bool} {a : Act} (ha : isHandle a = false) (hd : a ≠ .drive) {rest : List Act} (h : Ending b rest) :
    Ending b (a :: rest) := by
  refine ⟨by rw [List.countP_cons_of_neg (by simp [ha])]; exact h.none, fun pre rest' e => ?_⟩
  cases pre with
  | nil => simp only [List.nil_append, List.cons.injEq] at e; exact absurd e.1 hd
  | cons b pre =>
    simp only [List.cons_append, List.cons.injEq] at e
    exact (h.loop pre rest' e.2).imp id (List.mem_cons_of_mem _)

theorem Ending.shut {b : Bool} {acts : List Act} (h : Ending b acts) {b' : Bool} (hb : b = true → b' = true) : Ending b' acts :=
  ⟨h.none, fun pre rest e => (h.loop pre rest e).imp hb id⟩

/-- all threads -/
structure Serial (s : Sys) : Prop where
  run : ∀ acts, s.threads[0]? = some acts → Running acts
  stop : ∀ t acts, 0 < t → s.threads[t]? = some acts → Ending s.cqShut acts

theorem ActStep.running {s s' : Sys} {acts acts' : List Act} (h : ActStep s acts s' acts') (hr : Running acts) : Running acts' := by
  cases h with
  | buildLate => exact .nil
  | buildFail => exact .nil
  | flagNone => exact .nil
  | incrYes k rest => exact hr.tail.cons rfl (by simp)
  | driveOk rest c =>
    have h0 : rest.countP isHandle = 0 := hr.loop [] rest rfl
    exact (Running.handle hr (by rw [List.countP_cons]; simp [h0, isHandle])).cons rfl (by simp)
  | driveClose rest c => exact (hr.cons (a := .decr) rfl (by simp)).cons rfl (by simp)
  | _ => exact hr.tail

theorem ActStep.shut {s s' : Sys} {acts acts' : List Act} (h : ActStep s acts s' acts') : s.cqShut = true → s'.cqShut = true := by
  cases h <;> simp

theorem ActStep.ending {s s' : Sys} {acts acts' : List Act} (h : ActStep s acts s' acts')
    (hno : s.cqShut = true → ∀ c ∈ s.calls, c.phase ≠ .readyOk) (hr : Ending s.cqShut acts) : Ending s'.cqShut acts' := by
  cases h with
  | buildLate => exact .nil
  | buildFail => exact .nil
  | flagNone => exact .nil
  | incrYes k rest => exact (hr.tail (by simp)).cons rfl (by simp)
  | driveOk rest c hc hp =>
    rcases hr.loop [] rest rfl with h1 | h1
    · exact absurd hp (hno h1 c hc)
    · cases h1
  | driveClose rest c => exact (hr.cons (a := .decr) rfl (by simp)).cons rfl (by simp)
  | cqShutdown rest =>
    have h0 := hr.none
    rw [List.countP_cons] at h0
    exact ⟨by omega, fun _ _ _ => .inl rfl⟩
  | _ => exact hr.tail (by simp)

theorem Reachable.serial {s : Sys} (h : Reachable s) : Serial s := by
  induction h with
  | init =>
    constructor
    · intro acts ha
      cases ha
      refine ⟨by decide, fun pre rest e => ?_⟩
      have hmem : ∀ a ∈ rest, a ∈ runProgram := fun a ha => by rw [e]; simp [ha]
      rw [List.countP_eq_zero]
      intro a ha
      have := hmem a ha
      simp only [runProgram, List.mem_cons, List.not_mem_nil, or_false] at this
      rcases this with rfl | rfl | rfl | rfl | rfl <;> simp [isHandle]
    · intro t acts ht ha
      cases t with
      | zero => omega
      | succ t => simp [Sys.init] at ha
  | @step s s' hr hst ih =>
    have hno : s.cqShut = true → ∀ c ∈ s.calls, c.phase ≠ .readyOk :=
      fun hq c hc => ((C39_all_answered_at_queue_shutdown s hr hq).1 c hc).1
    cases hst with
    | thread s1 t acts acts' ht ha =>
      have hlt : t < s.threads.length := lt_of_getElem?_eq_some ht
      constructor
      · intro x hx
        change (s.threads.set t acts')[0]? = some x at hx
        by_cases h0 : t = 0
        · subst h0
          rw [List.getElem?_set_self hlt] at hx
          injection hx with hx
          subst hx
          exact ha.running (ih.run _ ht)
        · rw [List.getElem?_set_ne h0] at hx
          exact ih.run _ hx
      · intro t' x h0 hx
        change (s.threads.set t acts')[t']? = some x at hx
        show Ending s1.cqShut x
        by_cases he : t = t'
        · subst he
          rw [List.getElem?_set_self hlt] at hx
          injection hx with hx
          subst hx
          exact ha.ending hno (ih.stop _ _ h0 ht)
        · rw [List.getElem?_set_ne he] at hx
          exact (ih.stop _ _ h0 hx).shut ha.shut
    | callShutdown =>
      have hend : Ending s.cqShut shutdownProgram := by
        refine ⟨by decide, fun pre rest e => .inr ?_⟩
        unfold shutdownProgram at e
        rcases pre with _ | ⟨a, _ | ⟨b, _ | ⟨c, _ | ⟨d, _ | ⟨f, pre⟩⟩⟩⟩⟩ <;> simp at e
        obtain ⟨_, _, _, _, rfl, _⟩ := e
        simp
      constructor
      · intro x hx
        change (s.threads ++ [shutdownProgram])[0]? = some x at hx
        by_cases h0 : 0 < s.threads.length
        · rw [List.getElem?_append_left h0] at hx
          exact ih.run _ hx
        · rw [List.getElem?_append_right (by omega)] at hx
          have : s.threads.length = 0 := by omega
          rw [this] at hx
          simp only [Nat.sub_self, List.getElem?_cons_zero, Option.some.injEq] at hx
          subst hx
          refine ⟨by decide, fun pre rest e => ?_⟩
          have := hend.none
          rw [e, List.countP_append, List.countP_cons] at this
          omega
      · intro t x h0 hx
        change (s.threads ++ [shutdownProgram])[t]? = some x at hx
        show Ending s.cqShut x
        by_cases hl : t < s.threads.length
        · rw [List.getElem?_append_left hl] at hx
          exact ih.stop _ _ h0 hx
        · rw [List.getElem?_append_right (by omega)] at hx
          have hx' := List.mem_of_getElem? hx
          rw [List.mem_singleton] at hx'
          subst hx'
          exact hend
    | arrive c => exact ⟨ih.run, ih.stop⟩
    | cancel c => exact ⟨ih.run, ih.stop⟩
    | finished c => exact ⟨ih.run, ih.stop⟩

/-- **C71** At any moment at most one request is being handled, and it is the thread that runs the server
that handles it, also while the server is shutting down. -/
theorem C71_one_at_a_time (s : Sys) (h : Reachable s) :
    (∀ t id, Handling s t id → t = 0) ∧
    (∀ t id t' id', Handling s t id → Handling s t' id' → t = t' ∧ id = id') := by
  have hS := h.serial
  have hzero : ∀ t id, Handling s t id → t = 0 := by
    rintro t id ⟨acts, h1, h2⟩
    rcases Nat.eq_zero_or_pos t with h0 | h0
    · exact h0
    · exfalso
      have := (hS.stop t acts h0 h1).none
      rw [List.countP_eq_zero] at this
      exact this _ h2 rfl
  refine ⟨hzero, fun t id t' id' h1 h2 => ?_⟩
  have e1 := hzero _ _ h1
  have e2 := hzero _ _ h2
  subst e1; subst e2
  obtain ⟨acts, a1, a2⟩ := h1
  obtain ⟨acts', b1, b2⟩ := h2
  rw [a1] at b1; injection b1 with b1; subst b1
  refine ⟨rfl, ?_⟩
  have h1 := (hS.run _ a1).one
  obtain ⟨l, r, e⟩ := List.append_of_mem a2
  rw [e, List.countP_append, List.countP_cons] at h1
  have hh : isHandle (.handle id) = true := rfl
  rw [hh] at h1
  simp only [if_true] at h1
  have hl : l.countP isHandle = 0 := by omega
  have hr : r.countP isHandle = 0 := by omega
  rw [List.countP_eq_zero] at hl hr
  rw [e] at b2
  rcases List.mem_append.1 b2 with h3 | h3
  · exact absurd rfl (hl _ h3)
  · rcases List.mem_cons.1 h3 with h4 | h4
    · injection h4 with h4; exact h4.symm
    · exact absurd rfl (hr _ h4)

/-- **C71** A request is taken up only when no other is being handled. -/
theorem C71_taken_up_alone (s s' : Sys) (h : Reachable s) (hst : Step s s') {t id : Nat}
    (h1 : Handling s' t id) (h0 : ¬ Handling s t id) : ∀ t' id', ¬ Handling s t' id' := by
  rintro t' id' hh
  have hr' := h.step hst
  have ht' := (C71_one_at_a_time s h).1 _ _ hh
  have ht := (C71_one_at_a_time s' hr').1 _ _ h1
  subst ht; subst ht'
  obtain ⟨acts, a1, a2⟩ := hh
  cases hst with
  | callShutdown =>
    obtain ⟨x, x1, x2⟩ := h1
    change (s.threads ++ [shutdownProgram])[0]? = some x at x1
    rw [List.getElem?_append_left (lt_of_getElem?_eq_some a1)] at x1
    exact h0 ⟨x, x1, x2⟩
  | arrive c => exact h0 h1
  | cancel c => exact h0 h1
  | finished c => exact h0 h1
  | thread s1 t acts0 acts' ht ha =>
    obtain ⟨x, x1, x2⟩ := h1
    change (s.threads.set t acts')[0]? = some x at x1
    by_cases ht0 : t = 0
    · subst ht0
      rw [List.getElem?_set_self (lt_of_getElem?_eq_some ht)] at x1
      injection x1 with x1
      subst x1
      rw [ht] at a1; injection a1 with a1
      subst a1
      have hrun := h.serial.run _ ht
      have hold : Act.handle id ∉ acts0 := fun hm => h0 ⟨_, ht, hm⟩
      cases ha with
      | driveOk rest c =>
        have := hrun.loop [] rest rfl
        rw [List.countP_eq_zero] at this
        rcases List.mem_cons.1 a2 with h3 | h3
        · cases h3
        · exact this _ h3 rfl
      | buildLate => cases x2
      | buildFail => cases x2
      | flagNone => cases x2
      | incrYes k rest =>
        rcases List.mem_cons.1 x2 with h3 | h3
        · cases h3
        · exact hold (List.mem_cons_of_mem _ h3)
      | driveClose rest c =>
        rcases List.mem_cons.1 x2 with h3 | h3
        · cases h3
        · rcases List.mem_cons.1 h3 with h4 | h4
          · cases h4
          · exact hold h4
      | _ => exact hold (List.mem_cons_of_mem _ x2)
    · rw [List.getElem?_set_ne ht0] at x1
      exact h0 ⟨x, x1, x2⟩

/-- a request is being handled -/
example : ∃ s, Reachable s ∧ Handling s 0 0 := by
  have r1 := reach_serving.step (.arrive _ ⟨0, .nextState, .armed⟩ rfl (by simp [serving]) rfl)
  have r2 := r1.act 0 _ _ rfl (.driveOk _ _ ⟨0, .nextState, .readyOk⟩ (by simp [serving, setPhase]) rfl)
  exact ⟨_, r2, _, rfl, by simp⟩

end Mozolm.Server
